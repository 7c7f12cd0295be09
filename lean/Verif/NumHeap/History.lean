import Verif.NumHeap.Refine
import Verif.Num.Misc
import Verif.Heap.Store
import Verif.Heap.Interleave

/-!
# API calls of numtree on memory, and histories of them
-/

namespace Verif.NumHeap
open Verif.Heap Verif.Heap.Prog Verif.Heap.ATree Verif.Heap.AFrame Verif.Num

variable {w : Nat} {V : Type}

section
variable [KeySize w]

theorem InsertP_spec [Inhabited V] {f : Nat} {t : ATree (ND w V)} (hf : t.height < f) {h : Heap (ND w V)} (ht : Rep h t) (key : BitVec w) (bits : Int) (v : V) :
    wp (fun a => h.next ≤ a) (InsertP f (ptr t) key bits v) (fun p h' => ∃ t', p = ptr t' ∧ Rep h' t' ∧ erase t' = Num.Insert (erase t) key bits v ∧
      ∀ x, cnt x t' ≤ if h.next ≤ x then 1 else cnt x t) h := by
  simp only [InsertP, newNode, wp_bind, wp_new]
  refine wp_mono (fun a ha => ?_) (fun p h' => ?_) (insertP_spec f t hf _ (rep_push ht ⟨⟨key, clamp w bits, true, v⟩, none, none⟩) h.next
    ⟨key, clamp w bits, true, v⟩ (by simp) (by simp) (rep_zero ht _ (Nat.le_refl _)))
  · simp only [Heap.next_push] at ha; omega
  · rintro ⟨t', h1, h2, h3, h4⟩
    refine ⟨t', h1, h2, h3, fun x => ?_⟩
    have := h4 x
    simp only [Heap.next_push] at this
    grind

theorem DeleteP_spec {f : Nat} {t : ATree (ND w V)} (hf : t.height < f) {h : Heap (ND w V)} (ht : Rep h t) (key : BitVec w) (bits : Int) :
    wp (fun a => h.next ≤ a) (DeleteP f (ptr t) key bits) (fun r h' => ∃ t', r.1 = ptr t' ∧ Rep h' t' ∧ (erase t', r.2) = Num.Delete (erase t) key bits ∧
      (r.2 = false → t' = t) ∧ ∀ x, cnt x t' ≤ if h.next ≤ x then 1 else cnt x t) h := by
  cases t with
  | nil => exact ⟨.nil, rfl, trivial, rfl, fun _ => rfl, by simp⟩
  | node ad l r =>
    have e : DeleteP (V := V) f (ptr (.node ad l r)) key bits = delP f (ptr (.node ad l r)) key (clamp w bits) := rfl
    rw [e]
    exact delP_spec f _ hf h ht (by simp) key _

theorem InplaceInsertP_spec [Inhabited V] {f : Nat} {t : ATree (ND w V)} (hf : t.height < f) {h : Heap (ND w V)} (ht : Rep h t) (hc : ∀ x, cnt x t ≤ 1)
    (key : BitVec w) (bits : Int) (v : V) :
    wp (fun a => 1 ≤ cnt a t ∨ h.next ≤ a) (InplaceInsertP f (ptr t) key bits v) (fun p h' => ∃ t', p = ptr t' ∧ Rep h' t' ∧
      erase t' = Num.Insert (erase t) key bits v ∧ ∀ x, cnt x t' ≤ if h.next ≤ x then 1 else cnt x t) h := by
  refine wp_mono (fun a ha => ?_) (fun p h' => ?_) (inplaceLoop_spec f key (clamp w bits) v t hf [] (ptr t) none false h trivial ht (by simpa using hc) rfl (by simp) rfl)
  · simpa using ha
  · rintro ⟨t', h1, h2, h3, h4⟩
    exact ⟨t', h1, h2, h3, h4⟩

theorem MatchP_spec {f : Nat} {t : ATree (ND w V)} (hf : t.height < f) {h : Heap (ND w V)} (ht : Rep h t) (key : BitVec w) (bits : Int) :
    wp (fun _ => False) (MatchP f (ptr t) key bits) (fun r h' => h' = h ∧ r = Num.Match (erase t) key bits) h := by
  cases t with
  | nil => exact ⟨rfl, rfl⟩
  | node ad l r =>
    have e : MatchP (V := V) f (ptr (.node ad l r)) key bits = (do
      let r ← matchP f (ptr (.node ad l r)) key (clamp w bits)
      if r = none then pure none
      else
        let rc ← load r
        pure (some rc.d.value)) := rfl
    rw [e, wp_bind]
    refine wp_conseq (matchP_spec f _ hf h ht (by simp) key _) ?_
    rintro q _ ⟨rfl, hq⟩
    unfold Num.Match
    cases q with
    | none => rw [hq]; exact ⟨rfl, rfl⟩
    | some a =>
      obtain ⟨c, h1, h2⟩ := hq
      rw [h2]
      simp only [reduceCtorEq, if_false, wp_bind, wp_load h1, wp_pure]
      exact ⟨trivial, rfl⟩

theorem FindNodeP_spec {f : Nat} {t : ATree (ND w V)} (hf : t.height < f) {h : Heap (ND w V)} (ht : Rep h t) (key : BitVec w) (bits : Int) :
    wp (fun _ => False) (FindNodeP f (ptr t) key bits) (fun r h' => h' = h ∧
      ∃ s, r = ptr s ∧ Rep h s ∧ erase s = Num.FindNode (erase t) key bits ∧ ∀ x, cnt x s ≤ cnt x t) h := by
  cases t with
  | nil => exact ⟨rfl, .nil, rfl, trivial, rfl, by simp⟩
  | node ad l r =>
    have e : FindNodeP (V := V) f (ptr (.node ad l r)) key bits = (do
      let r ← exactMatchP f (ptr (.node ad l r)) key (clamp w bits)
      if r = none then pure none else pure r) := rfl
    rw [e, wp_bind]
    refine wp_conseq (exactMatchP_spec f _ hf h ht (by simp) key _) ?_
    rintro q _ ⟨rfl, s, rfl, h2⟩
    cases s with
    | nil => exact ⟨rfl, .nil, rfl, h2⟩
    | node ad' l' r' => exact ⟨rfl, .node ad' l' r', rfl, h2⟩

theorem ExactMatchP_spec {f : Nat} {t : ATree (ND w V)} (hf : t.height < f) {h : Heap (ND w V)} (ht : Rep h t) (key : BitVec w) (bits : Int) :
    wp (fun _ => False) (ExactMatchP f (ptr t) key bits) (fun r h' => h' = h ∧ r = Num.ExactMatch (erase t) key bits) h := by
  unfold ExactMatchP
  rw [wp_bind]
  refine wp_conseq (FindNodeP_spec hf ht key bits) ?_
  rintro q _ ⟨rfl, s, rfl, h2, h3, _⟩
  unfold Num.ExactMatch
  rw [← h3]
  cases s with
  | nil => exact ⟨rfl, rfl⟩
  | node ad' l' r' =>
    simp only [ptr_node, reduceCtorEq, if_false, wp_bind, wp_load h2.1, wp_pure]
    exact ⟨trivial, rfl⟩

omit [KeySize w] in
theorem EnumerateP_spec {f : Nat} {t : ATree (ND w V)} (hf : t.height < f) {h : Heap (ND w V)} (ht : Rep h t) :
    wp (fun _ => False) (EnumerateP f (ptr t)) (fun r h' => h' = h ∧ r = Num.Enumerate (erase t)) h := by
  cases t with
  | nil => exact ⟨rfl, rfl⟩
  | node ad l r => exact enumerateP_spec f _ hf h ht (by simp)

theorem matchP_readOnly (f : Nat) (n : Ptr) (key : BitVec w) (bits : Nat) : (matchP f n key bits : Prog (ND w V) Ptr).ReadOnly := by
  induction f generalizing n with
  | zero => trivial
  | succ f ih =>
    unfold matchP
    refine ReadOnly.bind (ReadOnly.load _) fun nc => ?_
    repeat' split
    all_goals first
      | exact ReadOnly.pure _
      | (refine ReadOnly.bind (ReadOnly.ifNotNil _ _ (ih _)) fun r => ?_
         repeat' split
         all_goals exact ReadOnly.pure _)

theorem exactMatchP_readOnly (f : Nat) (n : Ptr) (key : BitVec w) (bits : Nat) : (exactMatchP f n key bits : Prog (ND w V) Ptr).ReadOnly := by
  induction f generalizing n with
  | zero => trivial
  | succ f ih =>
    unfold exactMatchP
    refine ReadOnly.bind (ReadOnly.load _) fun nc => ?_
    repeat' split
    all_goals first
      | exact ReadOnly.pure _
      | (refine ReadOnly.bind (ReadOnly.ifNotNil _ _ (ih _)) fun r => ?_
         repeat' split
         all_goals exact ReadOnly.pure _)

omit [KeySize w] in
theorem enumerateP_readOnly (f : Nat) (n : Ptr) : (enumerateP f n : Prog (ND w V) _).ReadOnly := by
  induction f generalizing n with
  | zero => trivial
  | succ f ih =>
    unfold enumerateP
    refine ReadOnly.bind (ReadOnly.load _) fun nc => ?_
    refine ReadOnly.bind (ReadOnly.ifNotNil _ _ (ih _)) fun a => ?_
    exact ReadOnly.bind (ReadOnly.ifNotNil _ _ (ih _)) fun b => ReadOnly.pure _

theorem MatchP_readOnly (f : Nat) (n : Ptr) (key : BitVec w) (bits : Int) : (MatchP f n key bits : Prog (ND w V) _).ReadOnly := by
  unfold MatchP
  split
  · exact ReadOnly.pure _
  · refine ReadOnly.bind (matchP_readOnly _ _ _ _) fun r => ?_
    split
    · exact ReadOnly.pure _
    · exact ReadOnly.bind (ReadOnly.load _) fun _ => ReadOnly.pure _

theorem ExactMatchP_readOnly (f : Nat) (n : Ptr) (key : BitVec w) (bits : Int) : (ExactMatchP f n key bits : Prog (ND w V) _).ReadOnly := by
  unfold ExactMatchP
  refine ReadOnly.bind ?_ fun r => ?_
  · unfold FindNodeP
    split
    · exact ReadOnly.pure _
    · refine ReadOnly.bind (exactMatchP_readOnly _ _ _ _) fun r => ?_
      split <;> exact ReadOnly.pure _
  · split
    · exact ReadOnly.pure _
    · exact ReadOnly.bind (ReadOnly.load _) fun _ => ReadOnly.pure _

omit [KeySize w] in
theorem EnumerateP_readOnly (f : Nat) (n : Ptr) : (EnumerateP f n : Prog (ND w V) _).ReadOnly := by
  unfold EnumerateP
  split
  · exact ReadOnly.pure _
  · exact enumerateP_readOnly _ _

end

theorem erase_height {D : Type} (t : ATree D) : (erase t).height = t.height := by
  induction t with
  | nil => rfl
  | node ad l r ihl ihr => simp [ihl, ihr]

variable [LawfulKeySize w] [Inhabited V]

theorem run_height (ops : List (NumOp w V)) : (Num.run ops).height ≤ w + 1 := by
  have := (run_wf ops).1.height_le (by simp)
  simpa using this

/-- numtree as an implementation on memory: `Insert` and `Delete` are copy-on-write, `InplaceInsert` is in place. -/
def numImpl (f : Nat) (w : Nat) (V : Type) [LawfulKeySize w] [Inhabited V] : Impl (ND w V) (NumOp w V) where
  cow
    | .insert k b v, r => InsertP f r k b v
    | .delete k b, r => do
      let x ← DeleteP f r k b
      pure x.1
  inp
    | .insert k b v, r => InplaceInsertP f r k b v
    | .delete _ _, r => pure r
  inpOk
    | .insert _ _ _ => True
    | .delete _ _ => False
  run := Num.run

theorem numImpl_lawful {f : Nat} (hf : w + 2 ≤ f) (n : Nat) : (numImpl f w V).Lawful n where
  run_nil := rfl
  cow_ok ops o A h _ hA hE hN := by
    have hh : A.height < f := by
      have := run_height (w := w) (V := V) ops
      have e := erase_height A
      rw [hE] at e
      have : (Num.run ops).height = A.height := e
      omega
    cases o with
    | insert k b v =>
      refine wp_conseq (InsertP_spec hh hA k b v) ?_
      rintro p h' ⟨t', h1, h2, h3, h4⟩
      refine ⟨t', h1, h2, ?_, h4⟩
      rw [h3, hE]; rfl
    | delete k b =>
      show wp _ (do
        let x ← DeleteP f (ptr A) k b
        pure x.1) _ h
      rw [wp_bind]
      refine wp_conseq (DeleteP_spec hh hA k b) ?_
      rintro p h' ⟨t', h1, h2, h3, _, h4⟩
      refine ⟨t', h1, h2, ?_, h4⟩
      rw [hE] at h3
      exact congrArg Prod.fst h3
  inp_ok ops o A h _ ho hA hE hN := by
    have hh : A.height < f := by
      have := run_height (w := w) (V := V) ops
      have e := erase_height A
      rw [hE] at e
      have : (Num.run ops).height = A.height := e
      omega
    cases o with
    | insert k b v =>
      refine wp_conseq (InplaceInsertP_spec hh hA hN k b v) ?_
      rintro p h' ⟨t', h1, h2, h3, h4⟩
      refine ⟨t', h1, h2, ?_, h4⟩
      rw [h3, hE]; rfl
    | delete k b => exact ho.elim

end Verif.NumHeap
