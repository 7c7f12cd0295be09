import Verif.DomHeap.Ops
import Verif.DomTree.History

/-! # Insert and InplaceInsert of domaintree on memory -/

namespace Verif.DomHeap
open Verif Verif.Heap Verif.Heap.Prog Verif.Heap.ATree Verif.RB Verif.RBHeap Verif.DLHeap Verif.DL Verif.Domain Verif.DomainText Verif.DomTree

/-! ## The labels of a name -/

/-- The callback over a list of labels. -/
def foldP {D σ E : Type} (f : σ → Bytes → Prog D (σ × Option E)) : σ → List Bytes → Prog D (σ × Option E)
  | st, [] => pure (st, none)
  | st, l :: ls => do
    let x ← f st l
    match x.2 with
    | some e => pure (x.1, some e)
    | none => foldP f x.1 ls

theorem getLabelsLoopP_encode {D σ E : Type} (f : σ → Bytes → Prog D (σ × Option E)) (pre ls : List Bytes) (hs : Short ls) (fuel : Nat)
    (hf : ls.length < fuel) (st : σ) :
    getLabelsLoopP f (encode (pre ++ ls)) fuel (encode pre).length st = foldP f st ls := by
  induction ls generalizing pre fuel st with
  | nil =>
    cases fuel with
    | zero => omega
    | succ fuel => simp [getLabelsLoopP, foldP]
  | cons l ls ih =>
    cases fuel with
    | zero => omega
    | succ fuel =>
      have hl := hs l (by simp)
      unfold getLabelsLoopP
      have e1 : encode (pre ++ l :: ls) = encode pre ++ UInt8.ofNat l.length :: (l ++ encode ls) := by
        rw [encode_append, encode_cons]
      have hlt : (encode pre).length < (encode (pre ++ l :: ls)).length := by rw [e1]; simp
      simp only [hlt, if_true, Nat.add_sub_cancel]
      have hd : (encode (pre ++ l :: ls)).getD (encode pre).length 0 = UInt8.ofNat l.length := by
        rw [e1]; exact getD_append_len _ _ _ _
      rw [hd, toNat_ofNat_short hl.2]
      have hle : ¬ (encode (pre ++ l :: ls)).length < (encode pre).length + 1 + l.length := by rw [e1]; simp; omega
      simp only [hle, if_false]
      have hsl : slice (encode (pre ++ l :: ls)) ((encode pre).length + 1) ((encode pre).length + 1 + l.length) = l := by
        rw [e1]
        have := slice_mid (encode pre ++ [UInt8.ofNat l.length]) l (encode ls)
        simpa using this
      rw [hsl]
      unfold foldP
      have hnext : (encode pre).length + 1 + l.length = (encode (pre ++ [l])).length := by
        rw [encode_append]; simp [encode]; omega
      congr 1
      funext x
      obtain ⟨st', o⟩ := x
      cases o with
      | some e => rfl
      | none =>
        have := ih (pre ++ [l]) (fun x hx => hs x (by simp [hx])) fuel (by simp at hf; omega) st'
        rw [← hnext] at this
        simp only
        rw [← this]; simp

theorem getLabelsP {D σ E : Type} {d : Name} {ls : List Bytes} (hd : Holds d ls) (f : σ → Bytes → Prog D (σ × Option E)) (st : σ) :
    GetLabelsP d f st = foldP f st ls := by
  have := getLabelsLoopP_encode f [] ls hd.short ((encode ls).length + 1) (by have := length_le_encode ls; omega) st
  rw [GetLabelsP, hd.eq]
  simpa [encode] using this

variable {V : Type}

/-! ## Copying a node -/

theorem copyP_spec {m k : Nat} {h : Heap (DD V)} {a : Addr} {n : Node V} {F : Addr → Prop} {t : Ptr} {A : ATree (RD Bytes Ptr)}
    {fn : Ptr → Node V} {ff : Bytes → Addr → Prop} {W : Addr → Prop} (o : NOpen m h (NRep m h k) a n F t A fn ff) :
    wp W (copyP (some a)) (fun p h1 => p = some h.next ∧ h1 = h.push ⟨.node n.val, t, none⟩ ∧
      NOpen m h1 (NRep m h1 k) h.next n (fun x => x = h.next ∨ LFoot t A x ∨ ∃ l, ff l x) t A fn ff) h := by
  unfold copyP
  simp only [reduceCtorEq, if_false]
  rw [wp_bind, wp_nodeP o.cell, wp_newNodeP]
  exact ⟨rfl, rfl, o.copy⟩

/-- A copy holds the same, sharing everything below. -/
theorem copyP_rep {m k : Nat} {h : Heap (DD V)} {a : Addr} {n : Node V} {F : Addr → Prop} {W : Addr → Prop} (hN : NRep m h k a n F) :
    wp W (copyP (some a)) (fun p h1 => p = some h.next ∧ h1.next = h.next + 1 ∧ (∀ x, x < h.next → h1.mem x = h.mem x) ∧
      ∃ F', NRep m h1 k h.next n F' ∧ ∀ x, F' x → x = h.next ∨ F x ∧ x ≠ a) h := by
  cases k with
  | zero => exact hN.elim
  | succ k =>
    obtain ⟨t, A, fn, ff, o⟩ := hN
    refine wp_conseq (copyP_spec o) ?_
    rintro p h1 ⟨rfl, rfl, o'⟩
    refine ⟨rfl, by simp, fun x hx => ?_, _, ⟨t, A, fn, ff, o'⟩, ?_⟩
    · rw [Heap.mem_push, if_neg (by omega)]
    · rintro x (q | q | ⟨l, q⟩)
      · exact .inl q
      · exact .inr ⟨(o.foot x).2 (.inr (.inl q)), fun e => o.lab_ne (e ▸ q)⟩
      · exact .inr ⟨(o.foot x).2 (.inr (.inr ⟨l, q⟩)), (o.own l x q).1⟩

/-! ## Insert -/

theorem wp_pure {D α : Type} {W : Addr → Prop} {x : α} {Q : α → Heap D → Prop} {h : Heap D} : wp W (pure x) Q h ↔ Q x h := Iff.rfl


/-- The node to go on with is a new cell. -/
theorem nextP_spec {m k : Nat} {h : Heap (DD V)} {a : Addr} {n : Node V} {F : Addr → Prop} {t : Ptr} {A : ATree (RD Bytes Ptr)}
    {fn : Ptr → Node V} {ff : Bytes → Addr → Prop} {W : Addr → Prop} (o : NOpen m h (NRep m h (k + 1)) a n F t A fn ff) (l : Bytes) :
    wp W (nextP (at_ A l)) (fun p h1 => p = some h.next ∧ h1.next = h.next + 1 ∧ (∀ x, x < h.next → h1.mem x = h.mem x) ∧
      ∃ Fc, NRep m h1 (k + 1) h.next (nextNode n l) Fc ∧ ∀ x, Fc x → x = h.next ∨ ff l x) h := by
  unfold nextP nextNode
  rw [o.rawGet l]
  cases e : at_ A l with
  | none =>
    simp only [Option.map_none]
    rw [wp_newNodeP]
    refine ⟨rfl, by simp, fun x hx => ?_, _, new_rep m k h none, fun x hx => .inl hx⟩
    rw [Heap.mem_push, if_neg (by omega)]
  | some p =>
    obtain ⟨c, rfl, r⟩ := o.sub l p e
    simp only [assertP, Option.map_some]
    rw [wp_bind, wp_pure]
    refine wp_conseq (copyP_rep r) ?_
    rintro p h1 ⟨e1, e2, e3, Fc, r1, r2⟩
    refine ⟨e1, e2, e3, Fc, ?_, fun x hx => ?_⟩
    · cases hn : fn (some c) with
      | mk b v => simp only [hn] at r1; exact r1
    · rcases r2 x hx with q | q
      · exact .inl q
      · exact .inr q.1

/-- The walk of `Insert` from a node that may be written. -/
theorem insertWalk {m f : Nat} (hf : 2 * tall m + 3 ≤ f) (v : V) (ls : List Bytes) : ∀ (k : Nat) (h : Heap (DD V)) (a : Addr) (n n' : Node V) (F : Addr → Prop),
    NRep m h k a n F → ls.length < k → insertL n ls v = some n' →
    wp (fun x => x = a ∨ h.next ≤ x) (foldP (insertStepP f) (some a) ls >>= fun x => setValP x.1 v) (fun _ h' => ∃ F',
      NRep (m + 1) h' k a n' F' ∧ ∀ x, F' x → F x ∨ h.next ≤ x) h := by
  induction ls with
  | nil =>
    intro k h a n n' F hN hk hi
    cases k with
    | zero => omega
    | succ k =>
      obtain ⟨t, A, fn, ff, o⟩ := hN
      rw [wp_bind]
      unfold foldP
      rw [wp_pure, wp_setValP o.cell]
      simp only [DomTree.insertL, Option.some.injEq] at hi
      subst hi
      exact ⟨.inl rfl, F, NRep.mono (k := k + 1) ⟨t, A, fn, ff, o.setVal (some v)⟩ (by omega), fun x hx => .inl hx⟩
  | cons l ls ih =>
    intro k h a n n' F hN hk hi
    simp only [List.length_cons] at hk
    obtain ⟨k, rfl⟩ : ∃ j, k = j + 2 := ⟨k - 2, by omega⟩
    obtain ⟨t, A, fn, ff, o⟩ := hN
    simp only [DomTree.insertL, Option.bind_eq_some_iff, Option.map_eq_some_iff] at hi
    obtain ⟨next, hi1, br, hi2, rfl⟩ := hi
    rw [wp_bind]
    simp only [foldP, insertStepP]
    rw [wp_bind, wp_bind, wp_nodeP o.cell, wp_bind]
    refine wp_conseq (RawGetP_spec o.lab (by omega) l) ?_
    rintro _ h0 ⟨rfl, rfl⟩
    rw [wp_bind]
    refine wp_conseq (nextP_spec o l) ?_
    rintro _ h1 ⟨rfl, n1, m1, Fc, rc, fc⟩
    rw [wp_bind]
    have o1 := o.frame (h' := h1) (by omega) fun x hx => m1 x (o.flt hx)
    have hcF : ¬ F h0.next := fun q => by have := o.flt q; omega
    refine wp_mono (W := fun x => x = a ∨ h1.next ≤ x) ?_ ?_ (wp_frame (setBranch_spec o1 hf hcF l))
    · rintro x (q | q)
      · exact .inl q
      · exact .inr (by omega)
    rintro _ h2 ⟨⟨F', G, hole, hG, hlt, hsub⟩, n2, m2⟩
    simp only [wp_pure]
    have ha := o.lt
    have hca : ∀ x, Fc x → x ≠ a := by
      intro x hx
      rcases fc x hx with q | q
      · omega
      · exact (o.own l x q).1
    have rc2 := rc.frame (h' := h2) n2 fun x hx => m2 x (rc.lt hx) (by have := hca x hx; have := rc.lt hx; omega)
    rw [← wp_bind]
    refine wp_mono (W := fun x => x = h0.next ∨ h2.next ≤ x) ?_ ?_ (wp_frame (ih (k + 1) h2 h0.next _ next Fc rc2 (by omega) hi1))
    · rintro x (q | q)
      · exact .inr (by omega)
      · exact .inr (by omega)
    rintro _ h3 ⟨⟨Fc', rc3, fc3⟩, n3, m3⟩
    have hF' : ∀ x, F' x → x ≠ h0.next := by
      rintro x hx rfl
      rcases hsub _ hx with q | q
      · omega
      · exact hcF q.1
    obtain ⟨br', g1, g2⟩ := hG next
    rw [hi2] at g1
    cases g1
    obtain ⟨Fr, r1, r2⟩ := hole (m + 1) h3 next Fc' (by omega) n3 (fun x hx => m3 x (hlt x hx) (by have := hlt x hx; have := hF' x hx; omega)) rc3 (by
      intro x hx hx'
      rcases fc3 x hx with q | q
      · rcases fc x q with q | q
        · exact hF' x hx' q
        · rcases hsub x hx' with q' | q'
          · have := o.flt ((o.foot x).2 (.inr (.inr ⟨l, q⟩))); omega
          · exact q'.2 q
      · have := hlt x hx'; omega)
    rw [g2] at r1
    refine ⟨Fr, r1, fun x hx => ?_⟩
    rcases r2 x hx with q | q
    · rcases hsub x q with q | q
      · exact .inr (by omega)
      · exact .inl q.1
    · rcases fc3 x q with q | q
      · rcases fc x q with q | q
        · exact .inr (by omega)
        · exact .inl ((o.foot x).2 (.inr (.inr ⟨l, q⟩)))
      · exact .inr (by omega)

/-- A `*Node` in memory. -/
def PRep (m : Nat) (h : Heap (DD V)) (k : Nat) (p : Ptr) (n : Option (Node V)) (F : Addr → Prop) : Prop :=
  match p, n with
  | none, none => ∀ x, ¬ F x
  | some a, some n => NRep m h k a n F
  | _, _ => False

theorem InsertP_spec {m k f : Nat} {h : Heap (DD V)} {p : Ptr} {n r : Option (Node V)} {F : Addr → Prop} {d : Name} {ls : List Bytes} (hf : 2 * tall m + 3 ≤ f)
    (hN : PRep m h k p n F) (hd : Holds d ls) (hk : ls.length < k) (v : V) (hi : DomTree.Insert n d v = some r) :
    wp (fun x => h.next ≤ x) (InsertP f p d v) (fun q h' => ∃ F', PRep (m + 1) h' k q r F' ∧ ∀ x, F' x → h.next ≤ x ∨ F x) h := by
  have hi' : ∃ n', DomTree.insertL (copy n) ls v = some n' ∧ r = some n' := by
    unfold DomTree.Insert at hi
    rw [hd.labelsOf] at hi
    simp only [Option.bind_some, Option.map_eq_some_iff] at hi
    obtain ⟨n', h1, h2⟩ := hi
    exact ⟨n', h1, h2.symm⟩
  obtain ⟨n', hi', rfl⟩ := hi'
  unfold InsertP
  simp only [getLabelsP hd]
  rw [wp_bind]
  have cp : wp (fun x => h.next ≤ x) (copyP p) (fun q h1 => q = some h.next ∧ h1.next = h.next + 1 ∧ (∀ x, x < h.next → h1.mem x = h.mem x) ∧
      ∃ F', NRep m h1 k h.next (copy n) F' ∧ ∀ x, F' x → h.next ≤ x ∨ F x) h := by
    cases p with
    | none =>
      cases n with
      | some n => exact hN.elim
      | none =>
        unfold copyP
        simp only [if_true]
        rw [wp_newNodeP]
        obtain ⟨k, rfl⟩ : ∃ j, k = j + 1 := ⟨k - 1, by omega⟩
        refine ⟨rfl, by simp, fun x hx => ?_, _, new_rep m k h none, fun x hx => .inl (by omega)⟩
        rw [Heap.mem_push, if_neg (by omega)]
    | some a =>
      cases n with
      | none => exact hN.elim
      | some n =>
        refine wp_conseq (copyP_rep hN) ?_
        rintro q h1 ⟨e1, e2, e3, F', r1, r2⟩
        refine ⟨e1, e2, e3, F', ?_, fun x hx => ?_⟩
        · cases n; exact r1
        · rcases r2 x hx with q | q
          · exact .inl (by omega)
          · exact .inr q.1
  refine wp_conseq cp ?_
  rintro _ h1 ⟨rfl, n1, m1, F', r1, r2⟩
  have key := insertWalk hf v ls k h1 h.next (copy n) n' F' r1 hk hi'
  rw [wp_bind] at key
  rw [wp_bind]
  refine wp_mono (W := fun x => x = h.next ∨ h1.next ≤ x) ?_ ?_ key
  · rintro x (q | q) <;> omega
  · intro x h2 hx
    rw [wp_bind]
    refine wp_mono (W := fun x => x = h.next ∨ h1.next ≤ x) ?_ ?_ hx
    · rintro x (q | q) <;> omega
    · rintro _ h3 ⟨F3, r3, r4⟩
      refine ⟨F3, r3, fun x hx => ?_⟩
      rcases r4 x hx with q | q
      · exact r2 x q
      · exact .inl (by omega)

end Verif.DomHeap
