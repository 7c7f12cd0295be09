import Verif.Core.BTree

/-! # Positions in a binary tree and breadth-first order -/

namespace Verif.Levels
variable {D : Type}

/-- A position: the way down from the root, `false` is the first child. -/
abbrev Pos := List Bool

/-- The subtree at a position. -/
def subAt : BTree D → Pos → BTree D
  | t, [] => t
  | .nil, _ :: _ => .nil
  | .node _ l r, b :: p => subAt (if b then r else l) p

/-- The payload at a position. -/
def dataAt (t : BTree D) (p : Pos) : Option D :=
  match subAt t p with
  | .nil => none
  | .node d _ _ => some d

/-- The position holds a node with a child. -/
def HasKids (t : BTree D) (p : Pos) : Prop := subAt t (p ++ [false]) ≠ .nil ∨ subAt t (p ++ [true]) ≠ .nil

/-- The positions that are drawn: the root and both children (nil or not) of every node that has a child. -/
def Drawn (t : BTree D) (p : Pos) : Prop := p = [] ∨ ∃ q b, p = q ++ [b] ∧ HasKids t q

/-- Left to right, for positions of the same level. -/
def LeftOf : Pos → Pos → Prop
  | a :: p, b :: q => (a = false ∧ b = true) ∨ (a = b ∧ LeftOf p q)
  | _, _ => False

/-- Breadth-first order: upper levels first, left to right in a level. -/
def Before (p q : Pos) : Prop := p.length < q.length ∨ (p.length = q.length ∧ LeftOf p q)

end Verif.Levels
