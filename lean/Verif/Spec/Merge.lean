/-!
# Specification of merging listings

A merge copies the entries of one listing over another one.
-/

namespace Verif

/-- `l` consists of the entries of `l2` and of those entries of `l1` whose key does not occur in `l2`. -/
def Overlay {K V : Type} (l1 l2 l : List (K × V)) : Prop :=
  ∀ x, x ∈ l ↔ x ∈ l2 ∨ (x ∈ l1 ∧ ∀ y ∈ l2, y.1 ≠ x.1)

/-- The same for keys equal up to a comparison: a key both have stays in the spelling of `l1` and gets the value of
`l2`. -/
def OverlayBy {K V : Type} (cmp : K → K → Int) (l1 l2 l : List (K × V)) : Prop :=
  ∀ x, x ∈ l ↔ (x ∈ l2 ∧ ∀ y ∈ l1, cmp y.1 x.1 ≠ 0) ∨ (x ∈ l1 ∧ ∀ y ∈ l2, cmp y.1 x.1 ≠ 0) ∨
    (∃ a ∈ l1, ∃ b ∈ l2, cmp a.1 b.1 = 0 ∧ x = (a.1, b.2))

end Verif
