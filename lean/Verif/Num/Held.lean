import Verif.Num.Map
import Verif.Num.History

/-! # Counting nodes and values of prefix trees against their entries -/

namespace Verif.Num
variable {w : Nat} {V : Type}

/-- Values of entries are values of the tree; other nodes have none. -/
theorem vals_enumerate {t : NTree w V} {n : ND w V} (h : n ∈ enumerate t) : n.leaf = true ∧ n ∈ t.toPre := by
  induction t with
  | nil => simp [enumerate] at h
  | node m l r ihl ihr =>
    simp only [enumerate, List.mem_append] at h
    simp only [BTree.toPre, List.mem_cons, List.mem_append]
    rcases h with (h | h) | h
    · split at h
      · rename_i hm; simp at h; subst h; exact ⟨hm, .inl rfl⟩
      · cases h
    · exact ⟨(ihl h).1, .inr (.inl (ihl h).2)⟩
    · exact ⟨(ihr h).1, .inr (.inr (ihr h).2)⟩

theorem enumerate_of_leaf {t : NTree w V} {n : ND w V} (h : n ∈ t.toPre) (hl : n.leaf = true) : n ∈ enumerate t := by
  induction t with
  | nil => simp [BTree.toPre] at h
  | node m l r ihl ihr =>
    simp only [BTree.toPre, List.mem_cons, List.mem_append] at h
    simp only [enumerate, List.mem_append]
    rcases h with rfl | h | h
    · simp [hl]
    · exact .inl (.inr (ihl h))
    · exact .inr (ihr h)

theorem vals_toPre (t : NTree w V) : vals t = t.toPre.map (·.value) := by
  induction t with
  | nil => rfl
  | node n l r ihl ihr => simp [vals, BTree.toPre, ihl, ihr]

theorem toPre_length (t : NTree w V) : t.toPre.length = t.size := by
  induction t with
  | nil => rfl
  | node n l r ihl ihr => simp [BTree.toPre, ihl, ihr]

/-- A sum over all nodes when nodes without data count nothing. -/
theorem sumV_enumerate (g : V → Nat) {t : NTree w V} (h : ∀ n ∈ t.toPre, n.leaf = false → g n.value = 0) :
    sumV g t = ((enumerate t).map fun n => g n.value).sum := by
  induction t with
  | nil => rfl
  | node n l r ihl ihr =>
    have h1 := ihl fun m hm => h m (by simp [BTree.toPre, hm])
    have h2 := ihr fun m hm => h m (by simp [BTree.toPre, hm])
    have h3 := h n (by simp [BTree.toPre])
    simp only [sumV_node, enumerate, h1, h2, List.map_append, List.sum_append]
    cases hn : n.leaf
    · simp [h3 hn]
    · simp

/-- A tree of trees: `g` counts the nodes of a value, `e` its entries. -/
theorem nested_count {P : List Bool} {t : NTree w V} (h : WF P t) (g e : V → Nat) (h0 : ∀ n ∈ t.toPre, n.leaf = false → g n.value = 0)
    (h1 : ∀ n ∈ enumerate t, g n.value + 1 ≤ 2 * e n.value) : t.size + sumV g t ≤ 3 * ((enumerate t).map fun n => e n.value).sum := by
  rw [sumV_enumerate g h0]
  have key : ∀ l : List (ND w V), (∀ n ∈ l, g n.value + 1 ≤ 2 * e n.value) →
      (l.map fun n => g n.value).sum + 2 * l.length ≤ 3 * (l.map fun n => e n.value).sum := by
    intro l hl
    induction l with
    | nil => simp
    | cons a l ih =>
      have := hl a (by simp)
      have := ih fun n hn => hl n (by simp [hn])
      simp only [List.map_cons, List.sum_cons, List.length_cons]; omega
  have h2 := key _ h1
  by_cases hn : t = .nil
  · subst hn; simp [enumerate]
  · have := h.size_lt hn; omega

end Verif.Num
