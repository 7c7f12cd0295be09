import Verif.Core.BTree

/-! # What it means to be a red-black tree, stated on paths -/

namespace Verif

/-- The payloads on every path from the root to a nil, root first. -/
def paths {D : Type} : BTree D → List (List D)
  | .nil => [[]]
  | .node d l r => (paths l ++ paths r).map (d :: ·)

/-- Red-black tree: black root, no two reds in a row on any path, the same number of blacks on all paths. -/
structure IsRedBlack {D : Type} (red : D → Bool) (t : BTree D) : Prop where
  root : ∀ p ∈ paths t, ∀ d ∈ p.head?, red d = false
  noRedRed : ∀ p ∈ paths t, ∀ i (a b : D), p[i]? = some a → p[i + 1]? = some b → red a = true → red b = false
  blacks : ∀ p ∈ paths t, ∀ q ∈ paths t, p.countP (fun d => !red d) = q.countP (fun d => !red d)

end Verif
