/-!
# Specification of prefix maps

Model-independent specification used by the numtree and iptree properties.  A prefix is the list of its
significant bits, most significant first.  A prefix contains another one when it is an initial segment of it
(`<+:`, `List.IsPrefix`).
-/

namespace Verif

/-- The `b` most significant bits of the key, most significant first. -/
def sig {w : Nat} (k : BitVec w) (b : Nat) : List Bool :=
  (List.range b).map k.getMsbD

/-- The documented adjustment of a bit count: below zero is zero, above the key size is the key size. -/
def clampSpec (w : Nat) (bits : Int) : Nat :=
  if bits < 0 then 0 else if (w : Int) < bits then w else bits.toNat

/-- Abstract prefix map: which value, if any, is stored under a prefix. -/
abbrev PMap (V : Type) := List Bool → Option V

namespace PMap
variable {V : Type}

/-- The empty map. -/
def empty : PMap V := fun _ => none

/-- Store `v` under `p`, replacing a previous value. -/
def insert (m : PMap V) (p : List Bool) (v : V) : PMap V :=
  fun q => if q = p then some v else m q

/-- Remove every prefix contained in `p` (including `p` itself). -/
def delete (m : PMap V) (p : List Bool) : PMap V :=
  fun q => if p.isPrefixOf q then none else m q

/-- Some stored prefix is contained in `p`. -/
def HasBelow (m : PMap V) (p : List Bool) : Prop :=
  ∃ q v, p <+: q ∧ m q = some v

/-- `r` is the right answer to a longest-prefix-match query for `q`: either `r = some v`, `v` is stored under a
prefix of `q` and no longer prefix of `q` is stored, or `r = none` and no prefix of `q` is stored. -/
def IsLongestMatch (m : PMap V) (q : List Bool) (r : Option V) : Prop :=
  (∃ p v, r = some v ∧ p <+: q ∧ m p = some v ∧
      ∀ p' v', p' <+: q → m p' = some v' → p'.length ≤ p.length) ∨
  (r = none ∧ ∀ p, p <+: q → m p = none)

end PMap

/-- A modification of a prefix map as seen by the caller. -/
inductive POp (V : Type) where
  | insert (p : List Bool) (v : V)
  | delete (p : List Bool)

/-- What a history (newest operation first) leaves stored under `q`: the value of the most recent insertion at `q`
unless a later deletion covered `q`. -/
def lastWrite {V : Type} : List (POp V) → PMap V
  | [], _ => none
  | .insert p v :: ops, q => if q = p then some v else lastWrite ops q
  | .delete p :: ops, q => if p <+: q then none else lastWrite ops q

/-- Length of the longest common prefix of two bit strings. -/
def lcpLen : List Bool → List Bool → Nat
  | a :: as, b :: bs => if a = b then lcpLen as bs + 1 else 0
  | _, _ => 0

/-- Value of a prefix as a `w`-bit number: the key with the insignificant bits cleared. -/
def netKey {w : Nat} (k : BitVec w) (b : Nat) : Nat := k.toNat / 2 ^ (w - b) * 2 ^ (w - b)

end Verif
