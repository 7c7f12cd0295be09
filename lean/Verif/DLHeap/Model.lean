import Verif.RBHeap.Model
import Verif.DL.Model
import Verif.Heap.Lift

/-!
# Pointer-level model of dltree/dltree.go

`Tree` and `node` objects live in one memory.  The cell of a `Tree` has no payload; its first pointer is `root`.  The node
functions are the programs of `Verif/RBHeap` with the comparison of dltree/node.go:170-173.  The memory may hold other objects
as well (domaintree uses one memory for its own nodes and for the label trees), so the programs are written for any memory in
which the two kinds of cells are recognisable.

Simplifications beyond those of `Verif/DL/Model.lean` and `Verif/RBHeap/Model.lean`: the goroutine and channel of `Enumerate`
and `RawEnumerate` are left out (see `Verif/Chan`), the walk gives the list of pairs.
-/

namespace Verif.DLHeap
open Verif Verif.Heap Verif.Heap.Prog Verif.RB Verif.RBHeap Verif.DL Verif.Domain

/-- A memory with cells for dltree/node.go:15-21 `node` and dltree/dltree.go:6-9 `Tree`. -/
structure DLMem (V E : Type) where
  kR : Kind (RD Bytes V) E
  kT : Kind Unit E
  sep : ∀ d, kT.prj (kR.inj d) = none

variable {V E : Type} (M : DLMem V E)

/-- `t.root`: nil panics. -/
def rootP (t : Ptr) : Prog E Ptr := (do
  let c ← load t
  pure c.c0 : Prog Unit Ptr).lift M.kT

/-- `var n *node; if t != nil { n = t.root }`. dltree/dltree.go:24-30, 38-44. -/
def rootOrNilP (t : Ptr) : Prog E Ptr := if t ≠ none then rootP M t else pure none

/-- `&Tree{root: r}` -/
def newTreeP (r : Ptr) : Prog E Ptr := (do
  let a ← new ⟨(), r, none⟩
  pure (some a) : Prog Unit Ptr).lift M.kT

/-- `t.root = r` -/
def setRootP (t r : Ptr) : Prog E Unit := (upd t fun c => { c with c0 := r } : Prog Unit Unit).lift M.kT

/-- `dl, _ := domain.MakeLabel(key)`. dltree/dltree.go:32, 51, 66, 119. -/
def labelP (key : Bytes) : Prog E Bytes :=
  match labelOf key with
  | some dl => pure dl
  | none => .stop .panic

section
variable [Inhabited V]

/-- dltree/dltree.go:36-47 `RawInsert`. -/
def RawInsertP (f : Nat) (t : Ptr) (key : Bytes) (value : V) : Prog E Ptr := do
  let n ← rootOrNilP M t
  let x ← (insertP cmpLabel f n key value).lift M.kR
  newTreeP M x

/-- dltree/dltree.go:22-34 `Insert`. -/
def InsertP (f : Nat) (t : Ptr) (key : Bytes) (value : V) : Prog E Ptr := do
  let n ← rootOrNilP M t
  let dl ← labelP key
  let x ← (insertP cmpLabel f n dl value).lift M.kR
  newTreeP M x

/-- dltree/dltree.go:55-58 `RawInplaceInsert`. -/
def RawInplaceInsertP (f : Nat) (t : Ptr) (key : Bytes) (value : V) : Prog E Unit := do
  let n ← rootP M t
  let x ← (inplaceInsertP cmpLabel f n key value).lift M.kR
  setRootP M t x

/-- dltree/dltree.go:49-53 `InplaceInsert`. -/
def InplaceInsertP (f : Nat) (t : Ptr) (key : Bytes) (value : V) : Prog E Unit := do
  let dl ← labelP key
  RawInplaceInsertP M f t dl value

/-- dltree/dltree.go:124-132 `RawDelete`. -/
def RawDeleteP (f : Nat) (t : Ptr) (key : Bytes) : Prog E (Ptr × Bool) :=
  if t = none then pure (none, false)
  else do
    let n ← rootP M t
    let x ← (delP cmpLabel f n key).lift M.kR
    let t' ← newTreeP M x.1
    pure (t', x.2)

/-- dltree/dltree.go:113-122 `Delete`. -/
def DeleteP (f : Nat) (t : Ptr) (key : Bytes) : Prog E (Ptr × Bool) :=
  if t = none then pure (none, false)
  else do
    let dl ← labelP key
    RawDeleteP M f t dl
end

/-- dltree/dltree.go:70-77 `RawGet`. -/
def RawGetP (f : Nat) (t : Ptr) (key : Bytes) : Prog E (Option V) :=
  if t = none then pure none
  else do
    let n ← rootP M t
    (getP cmpLabel f n key).lift M.kR

/-- dltree/dltree.go:60-68 `Get`. -/
def GetP (f : Nat) (t : Ptr) (key : Bytes) : Prog E (Option V) :=
  if t = none then pure none
  else do
    let dl ← labelP key
    RawGetP M f t dl

/-- dltree/dltree.go:134-137 `IsEmpty`. -/
def IsEmptyP (t : Ptr) : Prog E Bool :=
  if t = none then pure true
  else do
    let n ← rootP M t
    pure (decide (n = none))

/-- dltree/dltree.go:96-111 `RawEnumerate`, dltree/node.go:320-330 `rawEnumerate`. -/
def RawEnumerateP (f : Nat) (t : Ptr) : Prog E (List (Bytes × V)) :=
  if t = none then pure []
  else do
    let n ← rootP M t
    (enumerateP f n).lift M.kR

/-- The keys as `domain.MakeHumanReadableLabel` gives them; `none` is its panic. dltree/node.go:313-315. -/
def humanL : List (Bytes × V) → Option (List (Bytes × V))
  | [] => some []
  | (k, v) :: l =>
    match MakeHumanReadableLabel k, humanL l with
    | some k, some l => some ((k, v) :: l)
    | _, _ => none

/-- dltree/dltree.go:79-94 `Enumerate`, dltree/node.go:308-318 `enumerate`. -/
def EnumerateP (f : Nat) (t : Ptr) : Prog E (List (Bytes × V)) := do
  let l ← RawEnumerateP M f t
  match humanL l with
  | some l => pure l
  | none => .stop .panic

end Verif.DLHeap
