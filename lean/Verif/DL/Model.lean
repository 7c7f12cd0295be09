import Verif.RB.Model
import Verif.Domain.Model

/-!
# dltree: red-black tree keyed by domain labels

`*Tree` is `Option (Tree V)` with `none` = nil.  The node code is the one modelled in `Verif/RB/Model.lean`
with the comparison of dltree/node.go:170-173 inlined there.
-/

namespace Verif.DL
open Verif.RB Verif.Domain

/-- Comparison of binary labels: length first, then `strings.Compare`. dltree/node.go:170-173, 241-244, 289-297,
362-365. -/
def cmpLabel (a b : Bytes) : Int :=
  if (a.length : Int) - b.length = 0 then compareBytes a b else (a.length : Int) - b.length

/-- dltree/dltree.go:6-9 `Tree`. -/
structure Tree (V : Type) where
  root : BTree (RD Bytes V)

variable {V : Type}

/-- The node a pointer leads to; `n` stays nil for a nil tree. dltree/dltree.go:23-47. -/
def rootOf : Option (Tree V) → RTree Bytes V
  | none => .nil
  | some t => t.root

/-- dltree/dltree.go:17-20 `NewTree`. -/
def NewTree : Option (Tree V) := some ⟨.nil⟩

/-- `dl, _ := domain.MakeLabel(key)`: the error is dropped and `dl` is "" then; `none` is the panic of MakeLabel.
dltree/dltree.go:32,51,66,119. -/
def labelOf (key : Bytes) : Option Bytes :=
  match MakeLabel key with
  | .ok dl => some dl
  | .err _ => some []
  | .panic => none

/-- dltree/dltree.go:36-47 `RawInsert`; `none` is a panic. -/
def RawInsert [Inhabited V] (t : Option (Tree V)) (key : Bytes) (value : V) : Option (Option (Tree V)) :=
  (RB.insert cmpLabel (rootOf t) key value).map fun n => some ⟨n⟩

/-- dltree/dltree.go:22-34 `Insert`. -/
def Insert [Inhabited V] (t : Option (Tree V)) (key : Bytes) (value : V) : Option (Option (Tree V)) :=
  (labelOf key).bind fun dl => RawInsert t dl value

/-- dltree/dltree.go:70-77 `RawGet`. -/
def RawGet (t : Option (Tree V)) (key : Bytes) : Option V :=
  match t with
  | none => none
  | some t => RB.get cmpLabel t.root key

/-- The tree in which the value found by `RawGet` has been changed through a pointer to it (used by domaintree, whose
values are pointers); the walk is the one of `get`. dltree/node.go:287-306. -/
def updAt (key : Bytes) (value : V) : BTree (RD Bytes V) → BTree (RD Bytes V)
  | .nil => .nil
  | .node d l r =>
    if cmpLabel d.key key = 0 then .node { d with value := value } l r
    else if cmpLabel d.key key < 0 then .node d l (updAt key value r) else .node d (updAt key value l) r

/-- dltree/dltree.go:60-68 `Get`; the outer `none` is a panic. -/
def Get (t : Option (Tree V)) (key : Bytes) : Option (Option V) :=
  match t with
  | none => some none
  | some t => (labelOf key).map fun dl => RB.get cmpLabel t.root dl

/-- dltree/dltree.go:124-132 `RawDelete`. -/
def RawDelete (t : Option (Tree V)) (key : Bytes) : Option (Tree V) × Bool :=
  match t with
  | none => (none, false)
  | some t => (some ⟨(RB.del cmpLabel t.root key).1⟩, (RB.del cmpLabel t.root key).2)

/-- dltree/dltree.go:113-122 `Delete`; `none` is a panic. -/
def Delete (t : Option (Tree V)) (key : Bytes) : Option (Option (Tree V) × Bool) :=
  match t with
  | none => some (none, false)
  | some t => (labelOf key).map fun dl => RawDelete (some t) dl

/-- dltree/dltree.go:96-111 `RawEnumerate`, dltree/node.go:320-330 `rawEnumerate`. -/
def RawEnumerate (t : Option (Tree V)) : List (Bytes × V) := RB.enumerate (rootOf t)

/-- dltree/node.go:308-318 `enumerate`: `none` is a panic of MakeHumanReadableLabel. -/
def enumerateN : RTree Bytes V → Option (List (Bytes × V))
  | .nil => some []
  | .node d l r =>
    match enumerateN l, MakeHumanReadableLabel d.key, enumerateN r with
    | some a, some k, some b => some (a ++ (k, d.value) :: b)
    | _, _, _ => none

/-- dltree/dltree.go:79-94 `Enumerate`. -/
def Enumerate (t : Option (Tree V)) : Option (List (Bytes × V)) := enumerateN (rootOf t)

/-- dltree/dltree.go:134-137 `IsEmpty`. -/
def IsEmpty (t : Option (Tree V)) : Bool := (rootOf t).isNil

/-- The public modifying calls. -/
inductive Op (V : Type) where
  | insert (key : Bytes) (v : V)
  | rawInsert (key : Bytes) (v : V)
  | delete (key : Bytes)
  | rawDelete (key : Bytes)

/-- One call. -/
def step [Inhabited V] (t : Option (Tree V)) : Op V → Option (Option (Tree V))
  | .insert k v => Insert t k v
  | .rawInsert k v => RawInsert t k v
  | .delete k => (Delete t k).map Prod.fst
  | .rawDelete k => some (RawDelete t k).1

/-- A history, newest call first, from `t0`; `none` is a panic. -/
def run [Inhabited V] (t0 : Option (Tree V)) : List (Op V) → Option (Option (Tree V))
  | [] => some t0
  | op :: ops => (run t0 ops).bind fun t => step t op

end Verif.DL
