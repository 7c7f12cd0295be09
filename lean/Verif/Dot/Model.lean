import Verif.Core.BTree
import Verif.Strtree.Model
import Verif.DL.Model
import Verif.Num.Model

/-!
# Dot

The lines of the Graphviz output as data: numbers and the dumped node, nil or not.  The text of a line ("N%d %s\n" with the
`dotString` of the node, "N%d -> { N%d N%d }\n") and the frame around the lines are a fixed rendering of these and not
modelled.
-/

namespace Verif.Dot

/-- One line of output. -/
inductive Line (D : Type) where
  /-- `fmt.Sprintf("N%d %s\n", i, n.dotString())`; `none` for a nil node. -/
  | node (i : Nat) (d : Option D)
  /-- `fmt.Sprintf("N%d -> { N%d N%d }\n", i, a, b)` -/
  | edge (i a b : Nat)
  deriving DecidableEq, Repr

variable {D : Type}

/-- Payload of a node, `none` for nil. -/
def data : BTree D → Option D
  | .nil => none
  | .node d _ _ => some d

/-- The loop of `Dot`; `none` is exhausted fuel.  numtree/node32.go:44-58, numtree/node64.go:50-63, strtree/node.go:22-36,
dltree/node.go:27-41. -/
def dotLoop : Nat → Nat → List (BTree D) → Option (List (Line D))
  | 0, _, _ => none
  | _ + 1, _, [] => some []
  | fuel + 1, i, c :: rest =>
    match c with
    | .nil => (dotLoop fuel (i + 1) rest).map fun out => .node i none :: out
    | .node d l r =>
      if !l.isNil || !r.isNil then
        (dotLoop fuel (i + 1) (rest ++ [l] ++ [r])).map fun out =>
          .node i (some d) :: .edge i (i + (rest.length + 1)) (i + (rest.length + 1) + 1) :: out
      else (dotLoop fuel (i + 1) rest).map fun out => .node i (some d) :: out

/-- numtree/node32.go:39-61 `Dot`, strtree/node.go:18-39 `dot`, dltree/node.go:23-44 `dot`: the lines of the body.  Each
node puts at most two nodes into the queue. -/
def dot (t : BTree D) : Option (List (Line D)) := dotLoop (2 * t.size + 2) 0 [t]

/-- strtree/strtree.go:95-104 `Dot`. -/
def strtreeDot {V : Type} : Option (Strtree.Tree V) → Option (List (Line (RB.RD Bytes V)))
  | none => some []
  | some t => dot t.root

/-- dltree/dltree.go:139-148 `Dot`. -/
def dltreeDot {V : Type} : Option (DL.Tree V) → Option (List (Line (RB.RD Bytes V)))
  | none => some []
  | some t => dot t.root

end Verif.Dot
