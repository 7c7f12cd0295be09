import Verif.Dot.Lemmas
import Verif.DLHeap.History
import Verif.NumHeap.History

/-!
# Dot on memory

Dot reads the tree node by node; the queue is a slice of the call's own.
-/

namespace Verif.Dot
open Verif Verif.Heap Verif.Heap.Prog Verif.Heap.ATree

variable {D : Type}

/-- The loop of `Dot` as `dotLoop`, on memory.  numtree/node32.go:44-58, numtree/node64.go:50-63, strtree/node.go:22-36, dltree/node.go:27-41.  The fields of a node are read
in one step. -/
def dotLoopP : Nat → Nat → List Ptr → Prog D (List (Line D))
  | 0, _, _ => .stop .fuel
  | _ + 1, _, [] => pure []
  | f + 1, i, c :: rest =>
    if c = none then do
      let out ← dotLoopP f (i + 1) rest
      pure (.node i none :: out)
    else do
      let n ← load c
      if n.c0 ≠ none ∨ n.c1 ≠ none then do
        let out ← dotLoopP f (i + 1) (rest ++ [n.c0] ++ [n.c1])
        pure (.node i (some n.d) :: .edge i (i + (rest.length + 1)) (i + (rest.length + 1) + 1) :: out)
      else do
        let out ← dotLoopP f (i + 1) rest
        pure (.node i (some n.d) :: out)

/-- numtree/node32.go:39-61 `Dot`, numtree/node64.go:46-66, strtree/node.go:18-39 `dot`, dltree/node.go:23-44 `dot`. -/
def DotP (f : Nat) (n : Ptr) : Prog D (List (Line D)) := dotLoopP f 0 [n]

/-- dltree/dltree.go:139-148 `Dot`. -/
def dltreeDotP {V E : Type} (M : DLHeap.DLMem V E) (f : Nat) (t : Ptr) : Prog E (List (Line (RB.RD Bytes V))) :=
  if t = none then pure []
  else do
    let n ← DLHeap.rootP M t
    (DotP f n).lift M.kR

theorem dotLoopP_readOnly (f i : Nat) (q : List Ptr) : (dotLoopP f i q : Prog D _).ReadOnly := by
  induction f generalizing i q with
  | zero => trivial
  | succ f ih =>
    cases q with
    | nil => trivial
    | cons c rest =>
      simp only [dotLoopP]
      split
      · exact .bind (ih _ _) fun _ => .pure _
      · refine .bind (.load _) fun n => ?_
        split
        · exact .bind (ih _ _) fun _ => .pure _
        · exact .bind (ih _ _) fun _ => .pure _

theorem dotLoop_mono {f g i : Nat} {q : List (BTree D)} {out : List (Line D)} (h : dotLoop f i q = some out) (hg : f ≤ g) : dotLoop g i q = some out := by
  induction f generalizing g i q out with
  | zero => cases h
  | succ f ih =>
    obtain ⟨g, rfl⟩ : ∃ k, g = k + 1 := ⟨g - 1, by omega⟩
    have key : ∀ {i q out}, dotLoop f i q = some out → dotLoop g i q = some out := fun h => ih h (by omega)
    cases q with
    | nil => exact h
    | cons c rest =>
      cases c with
      | nil =>
        simp only [dotLoop, Option.map_eq_some_iff] at h ⊢
        obtain ⟨o, h1, h2⟩ := h
        exact ⟨o, key h1, h2⟩
      | node d l r =>
        simp only [dotLoop] at h ⊢
        by_cases hc : (!l.isNil || !r.isNil) = true
        · rw [if_pos hc, Option.map_eq_some_iff] at h
          obtain ⟨o, h1, h2⟩ := h
          rw [if_pos hc, Option.map_eq_some_iff]
          exact ⟨o, key h1, h2⟩
        · rw [if_neg hc, Option.map_eq_some_iff] at h
          obtain ⟨o, h1, h2⟩ := h
          rw [if_neg hc, Option.map_eq_some_iff]
          exact ⟨o, key h1, h2⟩

theorem dotLoopP_spec {W : Addr → Prop} {h : Heap D} {f i : Nat} {As : List (ATree D)} (hA : ∀ A ∈ As, Rep h A) {out : List (Line D)} (hd : dotLoop f i (As.map erase) = some out) :
    wp W (dotLoopP f i (As.map ptr)) (fun x h' => h' = h ∧ x = out) h := by
  induction f generalizing i As out with
  | zero => cases hd
  | succ f ih =>
    cases As with
    | nil => cases hd; exact ⟨rfl, rfl⟩
    | cons A As =>
      have hr : ∀ A ∈ As, Rep h A := fun B hB => hA B (List.mem_cons_of_mem _ hB)
      cases A with
      | nil =>
        simp only [List.map_cons, erase_nil, dotLoop, Option.map_eq_some_iff] at hd
        obtain ⟨o, h1, rfl⟩ := hd
        simp only [List.map_cons, ptr_nil, dotLoopP, if_true, wp_bind, wp_pure]
        refine wp_conseq (ih hr h1) ?_
        rintro x h' ⟨rfl, rfl⟩
        exact ⟨rfl, rfl⟩
      | node ad l r =>
        obtain ⟨h1, h2, h3, h4⟩ := hA _ List.mem_cons_self
        have hk : (!(erase l).isNil || !(erase r).isNil) = true ↔ (ptr l ≠ none ∨ ptr r ≠ none) := by
          cases l <;> cases r <;> simp [BTree.isNil]
        simp only [List.map_cons, erase_node, dotLoop] at hd
        simp only [List.map_cons, ptr_node, dotLoopP, reduceCtorEq, if_false, wp_bind, wp_load h1]
        by_cases hc : (!(erase l).isNil || !(erase r).isNil) = true
        · rw [if_pos hc, Option.map_eq_some_iff] at hd
          obtain ⟨o, h5, rfl⟩ := hd
          rw [if_pos (hk.1 hc)]
          have := ih (As := As ++ [l] ++ [r]) (i := i + 1) (out := o) (by simpa [or_imp, forall_and, h3, h4] using hr) (by simpa using h5)
          simp only [wp_bind, wp_pure]
          refine wp_conseq (by simpa using this) ?_
          rintro x h' ⟨rfl, rfl⟩
          exact ⟨rfl, by simp⟩
        · rw [if_neg hc, Option.map_eq_some_iff] at hd
          obtain ⟨o, h5, rfl⟩ := hd
          rw [if_neg (fun k => hc (hk.2 k))]
          simp only [wp_bind, wp_pure]
          refine wp_conseq (ih hr h5) ?_
          rintro x h' ⟨rfl, rfl⟩
          exact ⟨rfl, rfl⟩

theorem erase_size (A : ATree D) : (erase A).size = A.size := by
  induction A with
  | nil => rfl
  | node ad l r ihl ihr => simp [BTree.size, ihl, ihr]

/-- `Dot` on memory. -/
theorem DotP_spec {W : Addr → Prop} {h : Heap D} {f : Nat} {A : ATree D} (hA : Rep h A) (hf : 2 * A.size + 2 ≤ f) :
    wp W (DotP f (ptr A)) (fun x h' => h' = h ∧ dot (erase A) = some x) h := by
  obtain ⟨slots, _, hd⟩ := dot_spec (erase A)
  rw [hd]
  have := dotLoopP_spec (W := W) (As := [A]) (by simpa using hA) (dotLoop_mono (g := f) hd (by rw [erase_size]; exact hf))
  refine wp_conseq this ?_
  rintro x h' ⟨rfl, rfl⟩
  exact ⟨rfl, rfl⟩

/-! ## The nodes shown -/

/-- The node a line shows. -/
def Line.shown : Line D → Option D
  | .node _ d => d
  | .edge _ _ _ => none

theorem dotLoop_shown {f i : Nat} {q : List (BTree D)} {out : List (Line D)} (h : dotLoop f i q = some out) : (out.filterMap Line.shown).Perm (q.flatMap BTree.toPre) := by
  induction f generalizing i q out with
  | zero => cases h
  | succ f ih =>
    cases q with
    | nil => cases h; exact .refl _
    | cons c rest =>
      cases c with
      | nil =>
        simp only [dotLoop, Option.map_eq_some_iff] at h
        obtain ⟨o, h1, rfl⟩ := h
        rw [List.filterMap_cons_none (by rfl)]
        simpa [BTree.toPre] using ih h1
      | node d l r =>
        simp only [dotLoop] at h
        by_cases hc : (!l.isNil || !r.isNil) = true
        · rw [if_pos hc, Option.map_eq_some_iff] at h
          obtain ⟨o, h1, rfl⟩ := h
          have := ih h1
          simp only [List.flatMap_append, List.flatMap_cons, List.flatMap_nil, List.append_nil, List.append_assoc] at this
          simp only [List.filterMap_cons, Line.shown, List.flatMap_cons, BTree.toPre, List.cons_append, List.append_assoc]
          exact (this.trans (List.perm_append_comm.trans (by rw [List.append_assoc]))).cons d
        · rw [if_neg hc, Option.map_eq_some_iff] at h
          obtain ⟨o, h1, rfl⟩ := h
          obtain ⟨rfl, rfl⟩ : l = .nil ∧ r = .nil := by
            cases l <;> cases r <;> simp [BTree.isNil] at hc ⊢
          simp only [List.filterMap_cons, Line.shown, List.flatMap_cons, BTree.toPre, List.nil_append, List.cons_append]
          simpa using (ih h1).cons d

end Verif.Dot
