/-!
# Binary trees with a payload

Shared functional shape of the two node types of the repository that have `chld [2]*T`:
`numtree.Node32/Node64` (numtree/node32.go:26-37, node64.go:33-44) and the red-black `node`
(strtree/node.go:10-16, dltree/node.go:15-21).  `nil` is the Go nil pointer; `node d l r` is a node with
non-pointer fields `d`, `chld[0] = l` and `chld[1] = r`.
-/

namespace Verif

/-- A binary tree with node payload `D`. -/
inductive BTree (D : Type) where
  | nil
  | node (d : D) (l r : BTree D)
  deriving Repr, DecidableEq, Inhabited

namespace BTree
variable {D : Type}

/-- `n.chld[b]` (false = index 0, true = index 1). -/
def child : BTree D → Bool → BTree D
  | nil, _ => nil
  | node _ l _, false => l
  | node _ _ r, true => r

/-- pointer test `n == nil` -/
def isNil : BTree D → Bool
  | nil => true
  | node _ _ _ => false

/-- A node with payload `d`, child `x` at index `b` and child `y` at the other index. -/
def mk2 (d : D) (b : Bool) (x y : BTree D) : BTree D :=
  if b then node d y x else node d x y

/-- number of nodes on the longest path -/
def height : BTree D → Nat
  | nil => 0
  | node _ l r => max l.height r.height + 1

/-- number of nodes -/
def size : BTree D → Nat
  | nil => 0
  | node _ l r => l.size + r.size + 1

/-- payloads in pre-order -/
def toPre : BTree D → List D
  | nil => []
  | node d l r => d :: (l.toPre ++ r.toPre)

@[simp] theorem height_nil : (nil : BTree D).height = 0 := rfl
@[simp] theorem height_node (d : D) (l r : BTree D) : (node d l r).height = max l.height r.height + 1 := rfl
@[simp] theorem size_nil : (nil : BTree D).size = 0 := rfl
@[simp] theorem size_node (d : D) (l r : BTree D) : (node d l r).size = l.size + r.size + 1 := rfl
@[simp] theorem isNil_nil : (nil : BTree D).isNil = true := rfl
@[simp] theorem isNil_node (d : D) (l r : BTree D) : (node d l r).isNil = false := rfl
theorem isNil_iff {t : BTree D} : t.isNil = true ↔ t = nil := by cases t <;> simp [isNil]
@[simp] theorem child_nil (b : Bool) : (nil : BTree D).child b = nil := rfl
@[simp] theorem child_false (d : D) (l r : BTree D) : (node d l r).child false = l := rfl
@[simp] theorem child_true (d : D) (l r : BTree D) : (node d l r).child true = r := rfl
@[simp] theorem mk2_false (d : D) (x y : BTree D) : mk2 d false x y = node d x y := rfl
@[simp] theorem mk2_true (d : D) (x y : BTree D) : mk2 d true x y = node d y x := rfl

theorem mk2_child (d : D) (l r : BTree D) (b : Bool) :
    mk2 d b ((node d l r).child b) ((node d l r).child (!b)) = node d l r := by
  cases b <;> rfl

end BTree
end Verif
