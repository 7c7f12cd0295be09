import Verif.DL.Model

/-!
# domaintree: trie of label trees

`*Node` is `Option (Node V)` with `none` = nil.  The nodes stored in the branches are never nil in the package
(domaintree/domaintree.go:43,67,176,247 store new nodes only), so they are plain `Node V`.  An outer `Option` is `none`
for a panic.
-/

namespace Verif.DomTree
open Verif.Domain

/-- domaintree/domaintree.go:11-17 `Node`.  `hasValue` and `value` together are an `Option`; the value of a node with
`hasValue == false` is never read. -/
inductive Node (V : Type) where
  | mk (branches : Option (DL.Tree (Node V))) (val : Option V)

namespace Node
variable {V : Type}

/-- Field `branches`. -/
def branches : Node V → Option (DL.Tree (Node V))
  | mk b _ => b

/-- Fields `hasValue`, `value`. -/
def val : Node V → Option V
  | mk _ v => v

/-- `new(Node)`. domaintree/domaintree.go:40,134,166,185. -/
def new : Node V := .mk none none

instance : Inhabited (Node V) := ⟨new⟩
end Node

variable {V : Type}

/-- domaintree/domaintree.go:183-193 `copy`. -/
def copy : Option (Node V) → Node V
  | none => .new
  | some n => .mk n.branches n.val

/-- The node to continue with. domaintree/domaintree.go:35-41. -/
def nextNode (n : Node V) (label : Bytes) : Node V :=
  match DL.RawGet n.branches label with
  | some item => copy (some item)
  | none => .new

/-- The callback of `Insert` run over the labels and the assignment after it. domaintree/domaintree.go:34-50.  The Go code
links `next` first and fills it in during the following calls; here the finished `next` is linked. -/
def insertL : Node V → List Bytes → V → Option (Node V)
  | n, [], v => some (.mk n.branches (some v))
  | n, label :: ls, v =>
    (insertL (nextNode n label) ls v).bind fun next =>
      (DL.RawInsert n.branches label next).map fun br => .mk br n.val

/-- The labels in the order `GetLabels` passes them to a callback that never fails. domain/name.go:144-159. -/
def labelsOf (d : Name) : Option (List Bytes) :=
  (d.GetLabels (E := Empty) (fun acc l => (acc ++ [l], none)) []).map Prod.fst

/-- domaintree/domaintree.go:29-53 `Insert`. -/
def Insert (n : Option (Node V)) (d : Name) (v : V) : Option (Option (Node V)) :=
  (labelsOf d).bind fun ls => (insertL (copy n) ls v).map some

/-- The callback of `InplaceInsert` run over the labels and the assignment after it. domaintree/domaintree.go:61-75.  The
tree is changed in place, so the result is the new content of the same nodes; the model assumes the exclusive access
the documentation asks for.  A found node is changed inside its label tree (`DL.updAt`); `RawInplaceInsert` on a nil
label tree is a nil dereference (dltree/dltree.go:56-58) and otherwise computes the tree of `RawInsert`. -/
def inplaceL : Node V → List Bytes → V → Option (Node V)
  | n, [], v => some (.mk n.branches (some v))
  | n, label :: ls, v =>
    match n.branches with
    | none => none
    | some t =>
      match DL.RawGet (some t) label with
      | some item => (inplaceL item ls v).map fun item => .mk (some ⟨DL.updAt label item t.root⟩) n.val
      | none => (inplaceL (.mk DL.NewTree none) ls v).bind fun next =>
        (DL.RawInsert (some t) label next).map fun br => .mk br n.val

/-- domaintree/domaintree.go:55-76 `InplaceInsert`; a nil node is dereferenced at :56. -/
def InplaceInsert (n : Option (Node V)) (d : Name) (v : V) : Option (Option (Node V)) :=
  match n with
  | none => none
  | some n =>
    let n := match n.branches with
      | none => .mk DL.NewTree n.val
      | some _ => n
    (labelsOf d).bind fun ls => (inplaceL n ls v).map some

/-- The callback of `Get`. domaintree/domaintree.go:99-111; the error is `errStopIterations`. -/
def getStep (st : Node V × Option V) (label : Bytes) : (Node V × Option V) × Option Unit :=
  match DL.RawGet st.1.branches label with
  | none => (st, some ())
  | some n =>
    match n.val with
    | some v => ((n, some v), none)
    | none => ((n, st.2), none)

/-- domaintree/domaintree.go:90-114 `Get`. -/
def Get (n : Option (Node V)) (d : Name) : Option (Option V) :=
  match n with
  | none => some none
  | some n => (d.GetLabels getStep (n, none)).map fun x => x.1.2

/-- What ends the walk of `getBranch` early: `errStopIterations` or an index out of range. -/
inductive Stop where
  | notFound
  | panic

/-- The callback of `getBranch`. domaintree/domaintree.go:221-234.  The arrays are filled from the end, so the state
is the pair of lists `labels[i+1:]` and `nodes[i:]` (its head is the current `n`) and `i = MaxLabels - len(nodes[i:])`.
`nodes[i] = n` panics after `i--` has made `i` negative. -/
def branchStep (st : List Bytes × Node V × List (Node V)) (label : Bytes) : (List Bytes × Node V × List (Node V)) × Option Stop :=
  match DL.RawGet st.2.1.branches label with
  | none => (st, some .notFound)
  | some n =>
    if MaxLabels ≤ st.2.2.length + 1 then (st, some .panic)
    else ((label :: st.1, n, st.2.1 :: st.2.2), none)

/-- domaintree/domaintree.go:217-239 `getBranch`: the outer `none` is a panic, the inner `none` is `len(labels)` (not
found), otherwise `labels[i+1:]`, `nodes[i]` and `nodes[i+1:]`. -/
def getBranch (n : Node V) (d : Name) : Option (Option (List Bytes × Node V × List (Node V))) :=
  match d.GetLabels branchStep ([], n, []) with
  | none => none
  | some (_, some .panic) => none
  | some (_, some .notFound) => some none
  | some (st, none) => some (some st)

/-- domaintree/domaintree.go:241-254 `copyBranch`. -/
def copyBranch (n : Node V) : List Bytes → List (Node V) → Option (Node V)
  | label :: ls, p :: ps =>
    if n.val.isNone && DL.IsEmpty n.branches then
      copyBranch (.mk (DL.RawDelete p.branches label).1 p.val) ls ps
    else
      (DL.RawInsert p.branches label n).bind fun br => copyBranch (.mk br p.val) ls ps
  | _, _ => some n

/-- domaintree/domaintree.go:116-142 `DeleteSubdomains`. -/
def DeleteSubdomains (n : Option (Node V)) (d : Name) : Option (Option (Node V) × Bool) :=
  match n with
  | none => some (none, false)
  | some n =>
    match getBranch n d with
    | none => none
    | some none => some (some n, false)
    | some (some (labels, ni, nodes)) =>
      if ni.val.isNone && DL.IsEmpty n.branches then some (some n, false)
      else
        match labels, nodes with
        | label :: labels, p :: nodes =>
          (copyBranch (.mk (DL.RawDelete p.branches label).1 p.val) labels nodes).map fun r => (some r, true)
        | _, _ => some (some .new, true)

/-- domaintree/domaintree.go:144-181 `Delete`. -/
def Delete (n : Option (Node V)) (d : Name) : Option (Option (Node V) × Bool) :=
  match n with
  | none => some (none, false)
  | some n =>
    match getBranch n d with
    | none => none
    | some none => some (some n, false)
    | some (some (labels, ni, nodes)) =>
      if ni.val.isNone then some (some n, false)
      else
        match labels, nodes with
        | label :: labels, p :: nodes =>
          if DL.IsEmpty ni.branches then
            (copyBranch (.mk (DL.RawDelete p.branches label).1 p.val) labels nodes).map fun r => (some r, true)
          else
            (DL.RawInsert p.branches label (.mk ni.branches none)).bind fun br =>
              (copyBranch (.mk br p.val) labels nodes).map fun r => (some r, true)
        | _, _ =>
          if DL.IsEmpty ni.branches then some (some .new, true) else some (some (.mk ni.branches none), true)

/-- The key of a child. domaintree/domaintree.go:207-210. -/
def subKey (key s : Bytes) : Bytes := if 0 < s.length then key ++ 46 :: s else key

mutual
/-- domaintree/domaintree.go:195-215 `enumerate`: pairs in the order they are sent; `none` is a panic in
MakeHumanReadableLabel.  `DL.Enumerate` (dltree/dltree.go:79-94, dltree/node.go:308-318) is unfolded in the other functions of
this group; `enumN_eq` in `DomTree/Enum.lean` folds it back. -/
def enumN : Bytes → Node V → Option (List (Bytes × V))
  | s, .mk br val =>
    (enumO s br).map fun rest => (match val with | some v => [(s, v)] | none => []) ++ rest

/-- The branches pointer. -/
def enumO : Bytes → Option (DL.Tree (Node V)) → Option (List (Bytes × V))
  | _, none => some []
  | s, some t => enumT s t

/-- The branches. -/
def enumT : Bytes → DL.Tree (Node V) → Option (List (Bytes × V))
  | s, ⟨r⟩ => enumB s r

/-- The nodes of the label tree in order. -/
def enumB : Bytes → BTree (RB.RD Bytes (Node V)) → Option (List (Bytes × V))
  | _, .nil => some []
  | s, .node d l r =>
    (enumB s l).bind fun a => (enumD s d).bind fun b => (enumB s r).map fun c => a ++ b ++ c

/-- One pair of the label tree. domaintree/domaintree.go:206-214. -/
def enumD : Bytes → RB.RD Bytes (Node V) → Option (List (Bytes × V))
  | s, ⟨key, node, _⟩ => (MakeHumanReadableLabel key).bind fun k => enumN (subKey k s) node
end

/-- domaintree/domaintree.go:78-88 `Enumerate`. -/
def Enumerate : Option (Node V) → Option (List (Bytes × V))
  | none => some []
  | some n => enumN [] n

/-- The public modifying calls. -/
inductive Op (V : Type) where
  | insert (d : Name) (v : V)
  | inplace (d : Name) (v : V)
  | delete (d : Name)
  | deleteSub (d : Name)

/-- One call. -/
def step (n : Option (Node V)) : Op V → Option (Option (Node V))
  | .insert d v => Insert n d v
  | .inplace d v => InplaceInsert n d v
  | .delete d => (Delete n d).map Prod.fst
  | .deleteSub d => (DeleteSubdomains n d).map Prod.fst

/-- A history, newest call first, from the nil or the zero `Node`; `none` is a panic. -/
def run (n0 : Option (Node V)) : List (Op V) → Option (Option (Node V))
  | [] => some n0
  | op :: ops => (run n0 ops).bind fun n => step n op

end Verif.DomTree
