import Verif.Spec.Prefix

/-!
# Specification: parts of a prefix map

What is meant by "the entries below a node".  Nothing here refers to trees.
-/

namespace Verif
namespace PMap
variable {V : Type}

/-- The entries contained in `p`. -/
def within (m : PMap V) (p : List Bool) : PMap V := fun q => if p <+: q then m q else none

/-- `p` contains all entries. -/
def Covers (m : PMap V) (p : List Bool) : Prop := ∀ q v, m q = some v → p <+: q

/-- `p` is the longest prefix that contains all entries. -/
def IsMeet (m : PMap V) (p : List Bool) : Prop := m.Covers p ∧ ∀ p', m.Covers p' → p' <+: p

end PMap

/-- A call that makes a tree from a tree, as the caller understands it: the two modifications, a change of the value of a
prefix that has one, taking the node found under a prefix, and taking one of the two children of the top node. -/
inductive NodeCall (V : Type) where
  | insert (p : List Bool) (v : V)
  | delete (p : List Bool)
  | assign (p : List Bool) (v : V)
  | find (p : List Bool)
  | child (b : Bool)

/-- `Leaves calls m`: after the calls (newest first), starting from nothing, the entries are those of `m`. -/
inductive Leaves {V : Type} : List (NodeCall V) → PMap V → Prop
  | start : Leaves [] PMap.empty
  | insert {l m} (p v) : Leaves l m → Leaves (.insert p v :: l) (m.insert p v)
  | delete {l m} (p) : Leaves l m → Leaves (.delete p :: l) (m.delete p)
  | assign {l m p old} (v) : Leaves l m → m p = some old → Leaves (.assign p v :: l) (m.insert p v)
  | assign_none {l m p} (v) : Leaves l m → m p = none → Leaves (.assign p v :: l) m
  | find {l m p v} : Leaves l m → m p = some v → Leaves (.find p :: l) (m.within p)
  | find_none {l m p} : Leaves l m → m p = none → Leaves (.find p :: l) PMap.empty
  | child {l m p} (b) : Leaves l m → m.IsMeet p → Leaves (.child b :: l) (m.within (p ++ [b]))
  | child_empty {l m} (b) : Leaves l m → (∀ q, m q = none) → Leaves (.child b :: l) PMap.empty

end Verif
