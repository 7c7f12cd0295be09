import Verif.Heap.Typed
import Verif.RBHeap.Confine

/-!
# A relation between the key and the value of every node, whatever the shape of the memory

`U key value` holds of every node in `A` before a call; then it does after it.
-/

namespace Verif.RBHeap
open Verif.Heap Verif.Heap.Prog Verif.RB

variable {K V : Type} [Inhabited K] [Inhabited V] {A : Addr → Prop} {U : K → V → Prop} {cmp : K → K → Int}

/-- The loops end at a cell whose key equals the key to insert. -/
def AtU (A : Addr → Prop) (U : K → V → Prop) (cmp : K → K → Int) (key : K) (s : St) (h : Heap (RD K V)) : Prop :=
  h.Keeps A (CellOf A U) ∧ StIn A s ∧ (s.r = 0 → ∃ a c, s.n = some a ∧ h.mem a = some c ∧ cmp c.d.key key = 0)

omit [Inhabited K] in
theorem insIter_typed (hU : ∀ k, U k default) {key : K} {s : St} (hs : StIn A s) (c : Ptr × Ptr) {h : Heap (RD K V)} (hh : h.Keeps A (CellOf A U)) :
    (insIter cmp key s c).pwpA A (Heap.Keeps A (CellOf A U)) (fun x h' => AtU A U cmp key x.1 h') h := by
  unfold insIter
  refine pwpA_load hh fun a m ha hm => ?_
  have hA : A a := hs.2.2 a ha
  have hcm := hh a m hA hm
  refine pwpA_S (S_enterCow hU key (hcm.child _) _) hh fun v _ hv hh => pwpA_S (S_setChld hs.2.2 _ hv.1) hh fun _ _ _ hh =>
    pwpA_S (S_fixP hs.1 hs.2.1 hs.2.2 hv.1 _) hh fun f _ hf hh => pwpA_S (S_reC _ hv.1 hv.2) hh fun c _ hc hh => pwpA_load hh fun a c ha hc => ?_
  exact ⟨hh, ⟨hf.1, hf.2, hv.1⟩, fun hr => ⟨a, c, ha, hc, hr⟩⟩

omit [Inhabited K] in
theorem insLoopP_typed (hU : ∀ k, U k default) {key : K} (f : Nat) (s : St) (c : Ptr × Ptr) {h : Heap (RD K V)} (hh : AtU A U cmp key s h) :
    (insLoopP cmp key f s c).pwpA A (Heap.Keeps A (CellOf A U)) (fun x h' => AtU A U cmp key x h' ∧ x.r = 0) h := by
  induction f generalizing s c h with
  | zero => exact hh.1
  | succ f ih =>
    unfold insLoopP
    split
    · exact pwpA_bind (pwpA_mono (insIter_typed hU hh.2.1 c hh.1) fun x h' hx => ih x.1 x.2 hx)
    · rename_i hr
      exact ⟨hh, Decidable.of_not_not hr⟩

omit [Inhabited K] in
theorem inpIter_typed (hU : ∀ k, U k default) {key : K} {s : St} (hs : StIn A s) {h : Heap (RD K V)} (hh : h.Keeps A (CellOf A U)) :
    (inpIter cmp key s).pwpA A (Heap.Keeps A (CellOf A U)) (fun x h' => AtU A U cmp key x h') h := by
  unfold inpIter
  refine pwpA_load hh fun a m ha hm => ?_
  have hcm := hh a m (hs.2.2 a ha) hm
  refine pwpA_S (S_enterInp hU key hs.2.2 _ (hcm.child _)) hh fun n _ hn hh => pwpA_S (S_fixP hs.1 hs.2.1 hs.2.2 hn _) hh fun f _ hf hh => pwpA_load hh fun a c ha hc => ?_
  exact ⟨hh, ⟨hf.1, hf.2, hn⟩, fun hr => ⟨a, c, ha, hc, hr⟩⟩

omit [Inhabited K] in
theorem inpLoopP_typed (hU : ∀ k, U k default) {key : K} (f : Nat) (s : St) {h : Heap (RD K V)} (hh : AtU A U cmp key s h) :
    (inpLoopP cmp key f s).pwpA A (Heap.Keeps A (CellOf A U)) (fun x h' => AtU A U cmp key x h' ∧ x.r = 0) h := by
  induction f generalizing s h with
  | zero => exact hh.1
  | succ f ih =>
    unfold inpLoopP
    split
    · exact pwpA_bind (pwpA_mono (inpIter_typed hU hh.2.1 hh.1) fun x h' hx => ih x hx)
    · rename_i hr
      exact ⟨hh, Decidable.of_not_not hr⟩

omit [Inhabited K] [Inhabited V] in
theorem finish_typed (hE : ∀ k k' v, cmp k k' = 0 → U k' v → U k v) {key : K} {value : V} (hv : U key value) {root : Ptr} (hroot : InA A root) (s : St) {h : Heap (RD K V)}
    (hh : AtU A U cmp key s h) (hr : s.r = 0) : (finish root s.n value).pwpA A (Heap.Keeps A (CellOf A U)) (fun x h' => InA A x ∧ h'.Keeps A (CellOf A U)) h := by
  obtain ⟨a, c, ha, hc, he⟩ := hh.2.2 hr
  unfold finish
  refine pwpA_upd hh.1 fun a' c' ha' hc' => ?_
  rw [ha] at ha'; cases ha'
  rw [hc] at hc'; cases hc'
  have hg := hh.1 a c (hh.2.1.2.2 a ha) hc
  have hh' : (h.put a { c with d := { c.d with value := value } }).Keeps A (CellOf A U) := hh.1.put ⟨hg.1, hg.2.1, hE _ _ _ he hv⟩
  refine stays_pwpA (P := InA A) ?_ hh'
  exact stays_load hroot fun rc hc => stays_bind (S_setRed hc.2.1 false) fun _ _ => hc.2.1

theorem insertP_typed (hU : ∀ k, U k default) (hE : ∀ k k' v, cmp k k' = 0 → U k' v → U k v) {key : K} {value : V} (hv : U key value) (f : Nat) {n : Ptr} (hn : InA A n)
    {h : Heap (RD K V)} (hh : h.Keeps A (CellOf A U)) : (insertP cmp f n key value).pwpA A (Heap.Keeps A (CellOf A U)) (fun x h' => InA A x ∧ h'.Keeps A (CellOf A U)) h := by
  unfold insertP
  split
  · exact pwpA_S (stays_new ⟨InA.none, InA.none, hv⟩) hh fun _ _ ha hh => ⟨InA.some ha, hh⟩
  · refine pwpA_S (stays_new ⟨InA.none, hn, hU _⟩) hh fun a h' ha hh => ?_
    exact pwpA_bind (pwpA_mono (insLoopP_typed hU f _ _ ⟨hh, ⟨InA.none, InA.none, InA.some ha⟩, fun hr => absurd (show (-1 : Int) = 0 from hr) (by decide)⟩)
      fun s h' hs => finish_typed hE hv (InA.some ha) s hs.1 hs.2)

theorem inplaceInsertP_typed (hU : ∀ k, U k default) (hE : ∀ k k' v, cmp k k' = 0 → U k' v → U k v) {key : K} {value : V} (hv : U key value) (f : Nat) {n : Ptr} (hn : InA A n)
    {h : Heap (RD K V)} (hh : h.Keeps A (CellOf A U)) : (inplaceInsertP cmp f n key value).pwpA A (Heap.Keeps A (CellOf A U)) (fun x h' => InA A x ∧ h'.Keeps A (CellOf A U)) h := by
  unfold inplaceInsertP
  split
  · exact pwpA_S (stays_new ⟨InA.none, InA.none, hv⟩) hh fun _ _ ha hh => ⟨InA.some ha, hh⟩
  · refine pwpA_S (stays_new ⟨InA.none, hn, hU _⟩) hh fun a h' ha hh => ?_
    exact pwpA_bind (pwpA_mono (inpLoopP_typed hU f _ ⟨hh, ⟨InA.none, InA.none, InA.some ha⟩, fun hr => absurd (show (-1 : Int) = 0 from hr) (by decide)⟩)
      fun s h' hs => finish_typed hE hv (InA.some ha) s hs.1 hs.2)

omit [Inhabited K] [Inhabited V] in
theorem delEndP_typed {s : DSt} (hs : DStIn A s) {h : Heap (RD K V)} (hh : h.Keeps A (CellOf A U)) : (delEndP s).pwpA A (Heap.Keeps A (CellOf A U)) (fun _ h' => h'.Keeps A (CellOf A U)) h := by
  unfold delEndP
  split
  · refine pwpA_load hh fun n cn hn hcn => pwpA_upd hh fun t ct ht hct => ?_
    rw [hn, ht]
    obtain ⟨cn', hcn', hv⟩ : ∃ cn', (h.put t { ct with d := { ct.d with key := cn.d.key } }).mem n = some cn' ∧ cn'.d.value = cn.d.value := by
      rw [Heap.mem_put]
      split
      · rename_i e
        subst e
        rw [hct] at hcn; cases hcn
        exact ⟨_, rfl, rfl⟩
      · exact ⟨cn, hcn, rfl⟩
    refine pwpA_load' hcn' (pwpA_upd' (c := { ct with d := { ct.d with key := cn.d.key } }) (by rw [Heap.mem_put, if_pos rfl]) ?_)
    rw [← hn]
    refine pwpA_mono (stays_pwpA (P := fun _ => True) (stays_load hs.1 fun cp _ => stays_load hs.2.1 fun cn hcn => S_setChld hs.1 _ (hcn.child _)) ?_) fun _ _ hx => hx.2
    intro x c hx hxc
    rw [Heap.mem_put] at hxc
    split at hxc
    · cases hxc
      have h1 := hh n cn (hs.2.1 n hn) hcn
      have h2 := hh t ct (hs.2.2 t ht) hct
      exact ⟨h2.1, h2.2.1, by simpa only [hv] using h1.2.2⟩
    · rename_i hne
      rw [Heap.mem_put, if_neg hne] at hxc
      exact hh x c hx hxc
  · exact hh

theorem delP_typed (hU : ∀ k, U k default) (f : Nat) {n : Ptr} (hn : InA A n) (key : K) {h : Heap (RD K V)} (hh : h.Keeps A (CellOf A U)) :
    (delP cmp f n key).pwpA A (Heap.Keeps A (CellOf A U)) (fun x h' => InA A x.1 ∧ h'.Keeps A (CellOf A U)) h := by
  unfold delP
  refine pwpA_S (stays_new ⟨InA.none, hn, hU _⟩) hh fun a h' ha hh => pwpA_S (S_delLoopP cmp key f ⟨InA.none, InA.some ha, InA.none⟩) hh fun s h' hs hh => ?_
  refine pwpA_bind (pwpA_mono (delEndP_typed hs hh) fun _ h' hh => ?_)
  refine stays_pwpA (P := fun x : Ptr × Bool => InA A x.1) ?_ hh
  exact stays_load (InA.some ha) fun rc hc => stays_ite (fun _ => stays_bind (S_setRed hc.2.1 _) fun _ _ => hc.2.1) fun _ => hc.2.1

end Verif.RBHeap
