import Verif.Core.Bytes

/-!
# Specification of maps keyed by domain names

A domain is the list of its labels from the top-level one (`com`, `example`, `www`), so a domain is a subdomain of the
domains that are initial segments of it (`<+:`).
-/

namespace Verif

/-- Which value, if any, is stored under a domain. -/
abbrev DMap (V : Type) := List Bytes → Option V

/-- `r` is the right answer for the closest enclosing domain of `q` that is stored in `m`: the value of the longest stored
initial segment of `q`, or `none` if there is none. -/
def DMap.IsClosest {V : Type} (m : DMap V) (q : List Bytes) (r : Option V) : Prop :=
  (∃ p v, r = some v ∧ p <+: q ∧ m p = some v ∧ ∀ p' v', p' <+: q → m p' = some v' → p'.length ≤ p.length) ∨
  (r = none ∧ ∀ p, p <+: q → m p = none)

/-- There is only one right answer. -/
theorem DMap.IsClosest.unique {V : Type} {m : DMap V} {q : List Bytes} {r s : Option V} (hr : m.IsClosest q r) (hs : m.IsClosest q s) : r = s := by
  rcases hr with ⟨p, v, rfl, hp, hv, hmax⟩ | ⟨rfl, hn⟩ <;> rcases hs with ⟨p', v', rfl, hp', hv', hmax'⟩ | ⟨rfl, hn'⟩
  · have h1 := hmax p' v' hp' hv'
    have h2 := hmax' p v hp hv
    have : p = p' := by
      rw [List.prefix_iff_eq_take.1 hp, List.prefix_iff_eq_take.1 hp', Nat.le_antisymm h2 h1]
    subst this
    rw [hv] at hv'; exact hv'
  · rw [hn' p hp] at hv; cases hv
  · rw [hn p' hp'] at hv'; cases hv'
  · rfl

/-- The map without the root domain. -/
def DMap.noRoot {V : Type} (m : DMap V) : DMap V := fun q => if q = [] then none else m q

/-- A modification of a domain map as seen by the caller. -/
inductive DOp (V : Type) where
  | insert (d : List Bytes) (v : V)
  | delete (d : List Bytes)
  | deleteSub (d : List Bytes)

/-- What a history (newest operation first) leaves stored under `q`. -/
def lastDom {V : Type} : List (DOp V) → DMap V
  | [], _ => none
  | .insert d v :: ops, q => if q = d then some v else lastDom ops q
  | .delete d :: ops, q => if q = d then none else lastDom ops q
  | .deleteSub d :: ops, q => if d <+: q then none else lastDom ops q

end Verif
