/-!
# Specification of maps keyed up to a comparison

`cmp a b` is the result of the Go comparison: negative when `a` precedes `b`, zero when they are equal, positive
otherwise (strtree/strtree.go:6-7).
-/

namespace Verif

/-- The comparison is a total preorder. -/
structure LawfulCmp {K : Type} (cmp : K → K → Int) : Prop where
  swap : ∀ a b, cmp a b < 0 ↔ 0 < cmp b a
  trans : ∀ a b c, cmp a b ≤ 0 → cmp b c ≤ 0 → cmp a c ≤ 0

/-- A modification of a map as seen by the caller. -/
inductive KOp (K V : Type) where
  | insert (k : K) (v : V)
  | delete (k : K)

/-- What a history (newest operation first) leaves under key `q`: the value of the most recent insertion of an
equal key unless an equal key was deleted later. -/
def lastWriteBy {K V : Type} (cmp : K → K → Int) : List (KOp K V) → K → Option V
  | [], _ => none
  | .insert k v :: ops, q => if cmp k q = 0 then some v else lastWriteBy cmp ops q
  | .delete k :: ops, q => if cmp k q = 0 then none else lastWriteBy cmp ops q

/-- The same for keys compared by equality. -/
def lastWrite' {K V : Type} [DecidableEq K] : List (KOp K V) → K → Option V
  | [], _ => none
  | .insert k v :: ops, q => if k = q then some v else lastWrite' ops q
  | .delete k :: ops, q => if k = q then none else lastWrite' ops q

/-- The spelling under which key `q` is stored: the one of the first insertion of an equal key after the last deletion
of an equal key. -/
def firstSpelling {K V : Type} (cmp : K → K → Int) : List (KOp K V) → K → Option K
  | [], _ => none
  | .insert k _ :: ops, q => if cmp k q = 0 then (firstSpelling cmp ops q).or (some k) else firstSpelling cmp ops q
  | .delete k :: ops, q => if cmp k q = 0 then none else firstSpelling cmp ops q

end Verif
