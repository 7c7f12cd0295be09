import Verif.RB.Model
import Verif.Core.Bytes

/-!
# strtree: the public API

A `*Tree` is an `Option (Tree V)` whose `none` is nil.  Results that may panic are wrapped in another `Option`.
`Compare` functions are assumed total and pure; their result is an unbounded integer (only its sign is used).
-/

namespace Verif.Strtree
open Verif.RB

/-- strtree/strtree.go:9-13 `Tree`. -/
structure Tree (V : Type) where
  root : RTree Bytes V
  compare : Bytes → Bytes → Int

variable {V : Type}

/-- strtree/strtree.go:21-24 `NewTree`. -/
def NewTree : Option (Tree V) := some ⟨.nil, compareBytes⟩

/-- strtree/strtree.go:26-29 `NewTreeWithCustomComparison`. -/
def NewTreeWithCustomComparison (compare : Bytes → Bytes → Int) : Option (Tree V) := some ⟨.nil, compare⟩

/-- strtree/strtree.go:31-46 `Insert`; the outer `none` is a panic. -/
def Insert [Inhabited V] (t : Option (Tree V)) (key : Bytes) (value : V) : Option (Option (Tree V)) :=
  match t with
  | none => (RB.insert compareBytes .nil key value).map fun n => some ⟨n, compareBytes⟩
  | some t => (RB.insert t.compare t.root key value).map fun n => some ⟨n, t.compare⟩

/-- strtree/strtree.go:53-60 `Get`. -/
def Get (t : Option (Tree V)) (key : Bytes) : Option V :=
  match t with
  | none => none
  | some t => RB.get t.compare t.root key

/-- strtree/strtree.go:62-77 `Enumerate`: the sequence sent to the channel. -/
def Enumerate (t : Option (Tree V)) : List (Bytes × V) :=
  match t with
  | none => []
  | some t => RB.enumerate t.root

/-- strtree/strtree.go:79-88 `Delete`. -/
def Delete (t : Option (Tree V)) (key : Bytes) : Option (Tree V) × Bool :=
  match t with
  | none => (none, false)
  | some t => (some ⟨(RB.del t.compare t.root key).1, t.compare⟩, (RB.del t.compare t.root key).2)

/-- strtree/strtree.go:90-93 `IsEmpty`. -/
def IsEmpty (t : Option (Tree V)) : Bool :=
  match t with
  | none => true
  | some t => t.root.isNil

/-- A history of copy-on-write calls (newest first) starting from `t0`; `none` is a panic. -/
def run [Inhabited V] (t0 : Option (Tree V)) : List (KOp Bytes V) → Option (Option (Tree V))
  | [] => some t0
  | .insert k v :: ops => (run t0 ops).bind fun t => Insert t k v
  | .delete k :: ops => (run t0 ops).map fun t => (Delete t k).1

/-- The node a tree pointer leads to. -/
def root : Option (Tree V) → RTree Bytes V
  | none => .nil
  | some t => t.root

end Verif.Strtree
