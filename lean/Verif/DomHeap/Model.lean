import Verif.DLHeap.Model
import Verif.DomTree.Model

/-!
# Pointer-level model of domaintree/domaintree.go

`Node`, `dltree.Tree` and dltree `node` objects live in one memory.  The payload of a `Node` cell is `hasValue`/`value` as an
`Option`, its first pointer is `branches`.  The values of label trees are pointers to `Node` cells; `nil` as such a value is the
nil interface, on which the type assertion `.(*Node)` panics.  The programs follow the Go statements in order; in particular
`Insert` links a new node before it is filled.

Simplifications beyond those of `Verif/DomTree/Model.lean` and `Verif/DLHeap/Model.lean`: the goroutine and channel of
`Enumerate` are left out, and each label tree is listed before its nodes are visited (in Go the two are interleaved through the
channel of `dltree.Tree.Enumerate`).
-/

namespace Verif.DomHeap
open Verif Verif.Heap Verif.Heap.Prog Verif.RB Verif.RBHeap Verif.DLHeap Verif.Domain Verif.DomTree

/-- Payload of a cell: a dltree `node` whose value is a pointer, a `dltree.Tree`, or a domaintree/domaintree.go:11-17
`Node`. -/
inductive DD (V : Type) where
  | rb (d : RD Bytes Ptr)
  | tree
  | node (val : Option V)

variable {V : Type}

/-- The cells of label trees. -/
def dm : DLMem Ptr (DD V) where
  kR := {
    inj := .rb
    prj
      | .rb d => some d
      | _ => none
    prj_inj _ := rfl
    inj_prj e d h := by cases e <;> simp at h; rw [h] }
  kT := {
    inj _ := .tree
    prj
      | .tree => some ()
      | _ => none
    prj_inj _ := rfl
    inj_prj e d h := by cases e <;> simp at h; rfl }
  sep _ := rfl

/-- The `Node` cells. -/
def kN : Kind (Option V) (DD V) where
  inj := .node
  prj
    | .node v => some v
    | _ => none
  prj_inj _ := rfl
  inj_prj e d h := by cases e <;> simp at h; rw [h]

/-- The fields of `*n` (value, branches): nil panics. -/
def nodeP (n : Ptr) : Prog (DD V) (Option V × Ptr) := (do
  let c ← load n
  pure (c.d, c.c0) : Prog (Option V) (Option V × Ptr)).lift kN

/-- `&Node{branches: br, hasValue: …, value: …}` -/
def newNodeP (br : Ptr) (val : Option V) : Prog (DD V) Ptr := (do
  let a ← new ⟨val, br, none⟩
  pure (some a) : Prog (Option V) Ptr).lift kN

/-- `n.branches = t` -/
def setBranchesP (n t : Ptr) : Prog (DD V) Unit := (upd n fun c => { c with c0 := t } : Prog (Option V) Unit).lift kN
/-- `n.hasValue = true; n.value = v` -/
def setValP (n : Ptr) (v : V) : Prog (DD V) Unit := (upd n fun c => { c with d := some v } : Prog (Option V) Unit).lift kN

/-- `item.(*Node)` -/
def assertP (item : Ptr) : Prog (DD V) Ptr :=
  match item with
  | none => .stop .panic
  | some a => pure (some a)

/-- domaintree/domaintree.go:183-193 `copy`. -/
def copyP (n : Ptr) : Prog (DD V) Ptr :=
  if n = none then newNodeP none none
  else do
    let x ← nodeP n
    newNodeP x.2 x.1

/-- `n.branches = n.branches.RawInsert(label, next)`. domaintree/domaintree.go:43, 176, 247. -/
def setBranchP (f : Nat) (n : Ptr) (label : Bytes) (next : Ptr) : Prog (DD V) Unit := do
  let x ← nodeP n
  let t ← RawInsertP dm f x.2 label next
  setBranchesP n t

/-- `n.branches, _ = n.branches.RawDelete(label)`. domaintree/domaintree.go:138, 174, 245. -/
def delBranchP (f : Nat) (n : Ptr) (label : Bytes) : Prog (DD V) Unit := do
  let x ← nodeP n
  let t ← RawDeleteP dm f x.2 label
  setBranchesP n t.1

/-! ## Walking the labels of a name -/

/-- The loop of `GetLabels` with a callback that uses the memory. domain/name.go:146-156. -/
def getLabelsLoopP {D σ E : Type} (f : σ → Bytes → Prog D (σ × Option E)) (c : Bytes) : Nat → Nat → σ → Prog D (σ × Option E)
  | 0, _, _ => .stop .fuel
  | fuel + 1, off, st =>
    if off < c.length then
      let off := off + 1
      let next := off + (c.getD (off - 1) 0).toNat
      if c.length < next then .stop .panic
      else do
        let x ← f st (slice c off next)
        match x.2 with
        | some e => pure (x.1, some e)
        | none => getLabelsLoopP f c fuel next x.1
    else pure (st, none)

/-- domain/name.go:144-159 `GetLabels` with a callback that uses the memory. -/
def GetLabelsP {D σ E : Type} (d : Name) (f : σ → Bytes → Prog D (σ × Option E)) (st : σ) : Prog D (σ × Option E) :=
  getLabelsLoopP f d.c (d.c.length + 1) 0 st

/-! ## Insert, InplaceInsert -/

/-- The next node. domaintree/domaintree.go:36-41. -/
def nextP (item : Option Ptr) : Prog (DD V) Ptr :=
  match item with
  | some item => do
    let item ← assertP item
    copyP item
  | none => newNodeP none none

/-- The callback of `Insert`. domaintree/domaintree.go:34-47. -/
def insertStepP (f : Nat) (n : Ptr) (label : Bytes) : Prog (DD V) (Ptr × Option Empty) := do
  let x ← nodeP n
  let item ← RawGetP dm f x.2 label
  let next ← nextP item
  setBranchP f n label next
  pure (next, none)

/-- domaintree/domaintree.go:29-53 `Insert`. -/
def InsertP (f : Nat) (n : Ptr) (d : Name) (v : V) : Prog (DD V) Ptr := do
  let r ← copyP n
  let x ← GetLabelsP d (insertStepP f) r
  setValP x.1 v
  pure r

/-- The callback of `InplaceInsert`. domaintree/domaintree.go:61-72. -/
def inplaceStepP (f : Nat) (n : Ptr) (label : Bytes) : Prog (DD V) (Ptr × Option Empty) := do
  let x ← nodeP n
  let item ← RawGetP dm f x.2 label
  match item with
  | some item => do
    let item ← assertP item
    pure (item, none)
  | none => do
    let t ← newTreeP dm none
    let next ← newNodeP t none
    let x ← nodeP n
    RawInplaceInsertP dm f x.2 label next
    pure (next, none)

/-- domaintree/domaintree.go:57-59. -/
def ensureBranchesP (n : Ptr) : Prog (DD V) Unit := do
  let x ← nodeP n
  if x.2 = none then do
    let t ← newTreeP dm none
    setBranchesP n t
  else pure ()

/-- domaintree/domaintree.go:55-76 `InplaceInsert`. -/
def InplaceInsertP (f : Nat) (n : Ptr) (d : Name) (v : V) : Prog (DD V) Unit := do
  ensureBranchesP n
  let x ← GetLabelsP d (inplaceStepP f) n
  setValP x.1 v

/-! ## Get -/

/-- The callback of `Get`. domaintree/domaintree.go:99-111. -/
def getStepP (f : Nat) (st : Ptr × Option V) (label : Bytes) : Prog (DD V) ((Ptr × Option V) × Option Unit) := do
  let x ← nodeP st.1
  let item ← RawGetP dm f x.2 label
  match item with
  | none => pure (st, some ())
  | some item => do
    let n ← assertP item
    let y ← nodeP n
    match y.1 with
    | some v => pure ((n, some v), none)
    | none => pure ((n, st.2), none)

/-- domaintree/domaintree.go:90-114 `Get`. -/
def GetP (f : Nat) (n : Ptr) (d : Name) : Prog (DD V) (Option V) :=
  if n = none then pure none
  else do
    let x ← GetLabelsP d (getStepP f) (n, none)
    pure x.1.2

/-! ## Delete, DeleteSubdomains -/

/-- The callback of `getBranch`, with the arrays as in `Verif.DomTree.branchStep`. domaintree/domaintree.go:221-234. -/
def branchStepP (f : Nat) (st : List Bytes × Ptr × List Ptr) (label : Bytes) : Prog (DD V) ((List Bytes × Ptr × List Ptr) × Option Stop) := do
  let x ← nodeP st.2.1
  let item ← RawGetP dm f x.2 label
  match item with
  | none => pure (st, some .notFound)
  | some item => do
    let n ← assertP item
    if MaxLabels ≤ st.2.2.length + 1 then .stop .panic
    else pure ((label :: st.1, n, st.2.1 :: st.2.2), none)

/-- domaintree/domaintree.go:217-239 `getBranch`: `none` is `len(labels)` (not found), otherwise `labels[i+1:]`, `nodes[i]` and
`nodes[i+1:]`. -/
def getBranchP (f : Nat) (n : Ptr) (d : Name) : Prog (DD V) (Option (List Bytes × Ptr × List Ptr)) := do
  let x ← GetLabelsP d (branchStepP f) ([], n, [])
  match x.2 with
  | some _ => pure none
  | none => pure (some x.1)

/-- `!n.hasValue && n.branches.IsEmpty()`. domaintree/domaintree.go:244. -/
def emptyP (n : Ptr) : Prog (DD V) Bool := do
  let x ← nodeP n
  if x.1.isNone then IsEmptyP dm x.2 else pure false

/-- One iteration of `copyBranch`. domaintree/domaintree.go:243-248. -/
def relinkP (f : Nat) (n : Ptr) (label : Bytes) (p : Ptr) : Prog (DD V) Unit := do
  let e ← emptyP n
  if e then delBranchP f p label else setBranchP f p label n

/-- domaintree/domaintree.go:241-254 `copyBranch`. -/
def copyBranchP (f : Nat) (n : Ptr) : List Bytes → List Ptr → Prog (DD V) Ptr
  | label :: ls, p :: ps => do
    let p ← copyP p
    relinkP f n label p
    copyBranchP f p ls ps
  | _, _ => pure n

/-- `!nodes[i].hasValue && n.branches.IsEmpty()`. domaintree/domaintree.go:128. -/
def noneBelowP (ni n : Ptr) : Prog (DD V) Bool := do
  let x ← nodeP ni
  if x.1.isNone then do
    let y ← nodeP n
    IsEmptyP dm y.2
  else pure false

/-- domaintree/domaintree.go:132-141. -/
def dropBranchP (f : Nat) : List Bytes → List Ptr → Prog (DD V) Ptr
  | label :: ls, p :: ps => do
    let c ← copyP p
    delBranchP f c label
    copyBranchP f c ls ps
  | _, _ => newNodeP none none

/-- domaintree/domaintree.go:116-142 `DeleteSubdomains`. -/
def DeleteSubdomainsP (f : Nat) (n : Ptr) (d : Name) : Prog (DD V) (Ptr × Bool) :=
  if n = none then pure (none, false)
  else do
    let b ← getBranchP f n d
    match b with
    | none => pure (n, false)
    | some (labels, ni, nodes) => do
      let e ← noneBelowP ni n
      if e then pure (n, false)
      else do
        let r ← dropBranchP f labels nodes
        pure (r, true)

/-- `&Node{branches: branches}` linked in, or the entry removed. domaintree/domaintree.go:173-177. -/
def clearP (f : Nat) (br : Ptr) (label : Bytes) (c : Ptr) : Prog (DD V) Unit := do
  let e ← IsEmptyP dm br
  if e then delBranchP f c label
  else do
    let q ← newNodeP br none
    setBranchP f c label q

/-- domaintree/domaintree.go:160-180. -/
def clearBranchP (f : Nat) (br : Ptr) : List Bytes → List Ptr → Prog (DD V) Ptr
  | label :: ls, p :: ps => do
    let c ← copyP p
    clearP f br label c
    copyBranchP f c ls ps
  | _, _ => do
    let e ← IsEmptyP dm br
    if e then newNodeP none none else newNodeP br none

/-- domaintree/domaintree.go:144-181 `Delete`. -/
def DeleteP (f : Nat) (n : Ptr) (d : Name) : Prog (DD V) (Ptr × Bool) :=
  if n = none then pure (none, false)
  else do
    let b ← getBranchP f n d
    match b with
    | none => pure (n, false)
    | some (labels, ni, nodes) => do
      let x ← nodeP ni
      if x.1.isNone then pure (n, false)
      else do
        let r ← clearBranchP f x.2 labels nodes
        pure (r, true)

/-! ## Enumerate -/

/-- The loop over the pairs of a label tree. domaintree/domaintree.go:206-214. -/
def enumItemsP (g : Bytes → Ptr → Prog (DD V) (List (Bytes × V))) (s : Bytes) : List (Bytes × Ptr) → Prog (DD V) (List (Bytes × V))
  | [] => pure []
  | (key, item) :: l => do
    let n ← assertP item
    let a ← g (subKey key s) n
    let b ← enumItemsP g s l
    pure (a ++ b)

/-- domaintree/domaintree.go:195-215 `enumerate`; the first number bounds the depth. -/
def enumP (f : Nat) : Nat → Bytes → Ptr → Prog (DD V) (List (Bytes × V))
  | 0, _, _ => .stop .fuel
  | k + 1, s, n =>
    if n = none then pure []
    else do
      let x ← nodeP n
      let items ← EnumerateP dm f x.2
      let rest ← enumItemsP (enumP f k) s items
      pure ((x.1.toList.map fun v => (s, v)) ++ rest)

/-- domaintree/domaintree.go:78-88 `Enumerate`. -/
def EnumerateTreeP (f : Nat) (n : Ptr) : Prog (DD V) (List (Bytes × V)) := enumP f f [] n

end Verif.DomHeap
