import Verif.Dot.Heap
import Verif.Heap.Cost

/-! # Cost and length of drawings -/

namespace Verif.Dot
open Verif Verif.Heap Verif.Heap.Prog Verif.Heap.ATree

variable {D : Type}

/-- The loop reads every node below the queue once. -/
theorem dotLoopP_cost {h : Heap D} {f i : Nat} {As : List (ATree D)} (hA : ∀ A ∈ As, Rep h A) {out : List (Line D)} (hd : dotLoop f i (As.map erase) = some out) :
    Cost (dotLoopP f i (As.map ptr)) h (As.map BTree.size).sum 0 := by
  induction f generalizing i As out with
  | zero => cases hd
  | succ f ih =>
    cases As with
    | nil => exact ⟨Nat.le_refl _, Nat.le_refl _⟩
    | cons A As =>
      have hr : ∀ A ∈ As, Rep h A := fun B hB => hA B (List.mem_cons_of_mem _ hB)
      have key : ∀ {i : Nat} {Bs : List (ATree D)} {o : List (Line D)} (g : List (Line D) → List (Line D)), (∀ B ∈ Bs, Rep h B) → dotLoop f i (Bs.map erase) = some o →
          Cost (dotLoopP f i (Bs.map ptr) >>= fun x => pure (g x)) h (Bs.map BTree.size).sum 0 := by
        intro i Bs o g hB h1
        exact Cost.bind (m' := 0) (n' := 0) (ih hB h1) (wp_conseq (dotLoopP_spec (W := fun _ => False) hB h1) fun _ _ _ => ⟨Nat.le_refl _, Nat.le_refl _⟩)
      cases A with
      | nil =>
        simp only [List.map_cons, erase_nil, dotLoop, Option.map_eq_some_iff] at hd
        obtain ⟨o, h1, rfl⟩ := hd
        simp only [List.map_cons, ptr_nil, dotLoopP, if_true, BTree.size_nil, List.sum_cons, Nat.zero_add]
        exact key _ hr h1
      | node ad l r =>
        obtain ⟨h1, h2, h3, h4⟩ := hA _ List.mem_cons_self
        have hk : (!(erase l).isNil || !(erase r).isNil) = true ↔ (ptr l ≠ none ∨ ptr r ≠ none) := by
          cases l <;> cases r <;> simp [BTree.isNil]
        simp only [List.map_cons, erase_node, dotLoop] at hd
        simp only [List.map_cons, ptr_node, dotLoopP, reduceCtorEq, if_false, BTree.size_node, List.sum_cons]
        by_cases hc : (!(erase l).isNil || !(erase r).isNil) = true
        · rw [if_pos hc, Option.map_eq_some_iff] at hd
          obtain ⟨o, h5, rfl⟩ := hd
          refine Cost.mono (Cost.bind (W := fun _ => False) (m' := ((As ++ [l] ++ [r]).map BTree.size).sum) (n' := 0) ((within_load _).cost h) ((wp_load h1).2 ?_)) (by simp; omega) (by omega)
          rw [if_pos (hk.1 hc)]
          have := key (Bs := As ++ [l] ++ [r]) (i := i + 1) (o := o) (fun x => .node i (some ad.2) :: .edge i (i + (As.length + 1)) (i + (As.length + 1) + 1) :: x)
            (by simpa [or_imp, forall_and, h3, h4] using hr) (by simpa using h5)
          simpa using this
        · rw [if_neg hc, Option.map_eq_some_iff] at hd
          obtain ⟨o, h5, rfl⟩ := hd
          refine Cost.mono (Cost.bind (W := fun _ => False) (m' := (As.map BTree.size).sum) (n' := 0) ((within_load _).cost h) ((wp_load h1).2 ?_)) (by omega) (by omega)
          rw [if_neg (fun k => hc (hk.2 k))]
          exact key _ hr h5

theorem DotP_cost {h : Heap D} {f : Nat} {A : ATree D} (hA : Rep h A) (hf : 2 * A.size + 2 ≤ f) : Cost (DotP f (ptr A)) h A.size 0 := by
  obtain ⟨slots, _, hd⟩ := dot_spec (erase A)
  unfold DotP
  have := dotLoopP_cost (As := [A]) (by simpa using hA) (dotLoop_mono (g := f) hd (by rw [erase_size]; exact hf))
  simpa using this

theorem dotLoop_length {f i : Nat} {q : List (BTree D)} {out : List (Line D)} (h : dotLoop f i q = some out) : out.length ≤ q.length + 3 * (q.map BTree.size).sum := by
  induction f generalizing i q out with
  | zero => cases h
  | succ f ih =>
    cases q with
    | nil => cases h; simp
    | cons c rest =>
      cases c with
      | nil =>
        simp only [dotLoop, Option.map_eq_some_iff] at h
        obtain ⟨o, h1, rfl⟩ := h
        have := ih h1
        simp; omega
      | node d l r =>
        simp only [dotLoop] at h
        by_cases hc : (!l.isNil || !r.isNil) = true
        · rw [if_pos hc, Option.map_eq_some_iff] at h
          obtain ⟨o, h1, rfl⟩ := h
          have := ih h1
          simp at this ⊢; omega
        · rw [if_neg hc, Option.map_eq_some_iff] at h
          obtain ⟨o, h1, rfl⟩ := h
          have := ih h1
          simp at this ⊢; omega

theorem dot_length {t : BTree D} {x : List (Line D)} (h : dot t = some x) : x.length ≤ 3 * t.size + 1 := by
  have := dotLoop_length h
  simp at this; omega

end Verif.Dot
