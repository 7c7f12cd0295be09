import Verif.Spec.DomMap

/-!
# Which stored names in-place insertion cannot go below

A history here marks the insertions made with `InplaceInsert`.  A name is *closed* by a history when it got into the tree
through `Insert` with nothing at or below it, and nothing below it was ever inserted since.
-/

namespace Verif

/-- A modification and, for insertions, whether it was made in place. -/
abbrev MOp (V : Type) := Bool × DOp V

/-- The name `q` is closed after the history (newest operation first). -/
def Closed {V : Type} : List (MOp V) → List Bytes → Prop
  | [], _ => False
  | (true, .insert _ _) :: ops, q => Closed ops q
  | (false, .insert d _) :: ops, q =>
    (q = d ∧ (Closed ops q ∨ ∀ p, d <+: p → lastDom (ops.map Prod.snd) p = none)) ∨ (¬ q <+: d ∧ Closed ops q)
  | (_, .delete d) :: ops, q => q ≠ d ∧ Closed ops q
  | (_, .deleteSub d) :: ops, q => ¬ d <+: q ∧ Closed ops q

end Verif
