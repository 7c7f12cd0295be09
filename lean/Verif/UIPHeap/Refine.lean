import Verif.UIPHeap.Ops

/-! # The copy-on-write methods of the generated IP trees, on memory, do what the functional model says -/

namespace Verif.UIPHeap
open Verif Verif.Heap Verif.Heap.Prog Verif.Heap.ATree Verif.Num Verif.NumHeap
open Verif.IP (v4Key v6Pair)
open Verif.UIP (Tree)

variable {V : Type}

/-- The roots of an object. -/
theorem TRep.roots {h : Heap (UD V)} {r : Ptr} {t : Option (Tree V)} {F : Addr → Prop} (hT : TRep h r t F) :
    ∃ A P, (∀ W Q, Q (ptr A, ptr P) h → wp W (rootsOrNilP r) Q h) ∧
      (Rep (k32.view h) A ∧ WF [] (erase A) ∧ ∀ x, cnt x A ≤ 1) ∧
      (Rep6 h P ∧ ∀ x, tot x P ≤ 1) ∧ t.getD ⟨.nil, .nil⟩ = ⟨erase A, mapT erase (erase P)⟩ ∧ (∀ x, 1 ≤ cnt x A → F x) ∧ (∀ x, 1 ≤ tot x P → F x) ∧
      (r ≠ none → ∀ h', h.next ≤ h'.next → (∀ a, F a → h'.mem a = h.mem a) → ∀ W Q, Q (ptr A, ptr P) h' → wp W (rootsP r) Q h') := by
  cases t with
  | none =>
    obtain ⟨rfl, _⟩ := hT
    exact ⟨.nil, .nil, fun W Q q => wp_rootsOrNilP_none.2 q, ⟨trivial, trivial, by simp⟩, ⟨rep6_nil h, by simp [tot]⟩, rfl,
      by simp, by simp [tot], fun q => (q rfl).elim⟩
  | some t =>
    obtain ⟨b, A, P, rfl, h5, h1, h2, h3, h9, h4⟩ := hT
    exact ⟨A, P, fun W Q q => (wp_rootsOrNilP_some h5).2 q, h2, h3, h9, fun x hx => (h4 x).2 (.inr (.inl hx)), fun x hx => (h4 x).2 (.inr (.inr hx)),
      fun _ h' _ hm W Q q => (wp_rootsP ((hm b ((h4 b).2 (.inl rfl))).trans h5)).2 q⟩

theorem Rep6.push {h : Heap (UD V)} {P : ATree (ND 64 (AB V))} (hP : Rep6 h P) (c : Cell (UD V)) : Rep6 (h.push c) P := by
  refine hP.frame (by simp) fun a ha => ?_
  have := hP.lt ha
  rw [Heap.mem_push, if_neg (by omega)]

theorem rep4_push {h : Heap (UD V)} {A : ATree (ND 32 V)} (hA : Rep (k32.view h) A) (c : Cell (UD V)) : Rep (k32.view (h.push c)) A := by
  refine rep_frame hA (by simp) fun a ha => k32.view_frame ?_
  have : a < h.next := rep_lt hA ha
  rw [Heap.mem_push, if_neg (by omega)]

/-- A new `Tree` cell for two trees. -/
theorem wp_mk {W : Addr → Prop} {h0 h : Heap (UD V)} {F : Addr → Prop} {A : ATree (ND 32 V)} {P : ATree (ND 64 (AB V))}
    (hA : Rep (k32.view h) A ∧ WF [] (erase A) ∧ ∀ x, cnt x A ≤ 1) (hP : Rep6 h P ∧ ∀ x, tot x P ≤ 1) (hn : h0.next ≤ h.next)
    (ha : ∀ x, 1 ≤ cnt x A → h0.next ≤ x ∨ F x) (hp : ∀ x, 1 ≤ tot x P → h0.next ≤ x ∨ F x) :
    wp W (newTreeP (ptr A) (ptr P)) (fun r h' => ∃ F', TRep h' r (some ⟨erase A, mapT erase (erase P)⟩) F' ∧ ∀ x, F' x → h0.next ≤ x ∨ F x) h := by
  rw [wp_newTreeP]
  refine ⟨fun x => x = h.next ∨ 1 ≤ cnt x A ∨ 1 ≤ tot x P, ⟨h.next, A, P, rfl, by simp, by simp, ⟨rep4_push hA.1 _, hA.2⟩, ⟨hP.1.push _, hP.2⟩, rfl, fun _ => Iff.rfl⟩, ?_⟩
  rintro x (rfl | q | q)
  · exact .inl hn
  · exact ha x q
  · exact hp x q

/-- The nested tree found for a key, as a pointer and as a tree. -/
theorem sub_found {h : Heap (UD V)} {P : ATree (ND 64 (AB V))} (hP : Rep6 h P) (k : BitVec 64) (b : Int) :
    ∃ B, ((Num.ExactMatch (erase P) k b).map ptr).getD none = ptr B ∧ Sub h B ∧
      (Num.ExactMatch (mapT erase (erase P)) k b).getD .nil = erase B ∧
      ((Num.ExactMatch (erase P) k b = some B) ∨ (Num.ExactMatch (erase P) k b = none ∧ B = .nil)) ∧
      ∀ x, cnt x B ≤ oldV (cnt x) (erase P) k (clamp 64 b) := by
  rw [ExactMatch_map]
  cases e : Num.ExactMatch (erase P) k b with
  | none => exact ⟨.nil, rfl, ⟨trivial, trivial⟩, rfl, .inr ⟨rfl, rfl⟩, by simp⟩
  | some B =>
    refine ⟨B, rfl, hP.sub _ (vals_ExactMatch e), rfl, .inl rfl, fun x => ?_⟩
    unfold Num.ExactMatch Num.FindNode at e
    unfold oldV
    cases e' : exactMatch (erase P) k (clamp 64 b) with
    | nil => simp [e'] at e
    | node n l r => simp [e'] at e; simp [e]

theorem mapT_insert (t : NTree 64 (AB V)) (k : BitVec 64) (b : Int) (v : AB V) :
    mapT erase (Num.Insert t k b v) = Num.Insert (mapT erase t) k b (erase v) := (Insert_map erase rfl t k b v).symm

section
variable {f : Nat} (hf : 66 ≤ f) {h : Heap (UD V)}
include hf

/-- Replacing the tree nested under a key by one made of fresh nodes and nodes of the old one. -/
theorem resub_spec {h0 : Heap (UD V)} {P : ATree (ND 64 (AB V))} (hP0 : Rep6 h0 P) (hc : ∀ x, tot x P ≤ 1) (hk : Kept h0 h) (k : BitVec 64) (b : Int) {B B' : AB V}
    (hB' : Sub h B') (ho : ∀ x, cnt x B ≤ oldV (cnt x) (erase P) k (clamp 64 b))
    (hb : ∀ x, cnt x B' ≤ if h0.next ≤ x then 1 else cnt x B) :
    wp (fun a => h.next ≤ a) (on64s (InsertP f (ptr P) k b (ptr B'))) (fun p h' => ∃ P', p = ptr P' ∧ Rep6 h' P' ∧
      erase P' = Num.Insert (erase P) k b B' ∧
      (∀ x, tot x P' ≤ if h0.next ≤ x then 1 else tot x P) ∧ Kept h0 h') h := by
  have hP : Rep6 h P := hP0.frame hk.1 fun a ha => hk.2 a (hP0.lt ha)
  refine wp_conseq (ins6_spec hf hP k b B' hB') ?_
  rintro p h' ⟨P', h1, h2, h3, h4, h5⟩
  refine ⟨P', h1, h2, h3, fun x => ?_, ⟨Nat.le_trans hk.1 h5.1, fun a ha => (h5.2 a (Nat.lt_of_lt_of_le ha hk.1)).trans (hk.2 a ha)⟩⟩
  have h4 := h4 x
  have hb := hb x
  have ho := ho x
  have hc := hc x
  have hz := fun q => hP0.zero (a := x) q
  have := hk.1
  have : h.next ≤ x → h0.next ≤ x := fun q => by omega
  by_cases q1 : h0.next ≤ x
  · have hz := hz q1
    simp only [q1, if_true] at hb ⊢
    split at h4 <;> omega
  · have q2 : ¬ h.next ≤ x := by omega
    simp only [q1, q2, if_false] at *
    omega

theorem InsertNetP_spec [Inhabited V] {r : Ptr} {t : Option (Tree V)} {F : Addr → Prop} (hT : TRep h r t F) (n : Option IPNet) (v : V) :
    wp (fun a => h.next ≤ a) (InsertNetP f r n v) (fun r' h' => ∃ F', TRep h' r' (UIP.InsertNet t n v) F' ∧ ∀ x, F' x → h.next ≤ x ∨ F x) h := by
  cases n with
  | none => exact ⟨F, hT, fun x => .inr⟩
  | some n =>
    obtain ⟨A, P, hr, hA, hP, ht, fA, fP, _⟩ := hT.roots
    simp only [UIP.InsertNet, ht]
    unfold InsertNetP
    simp only
    rw [wp_bind]
    apply hr
    cases e4 : v4Key n with
    | some kb =>
      obtain ⟨key, bits⟩ := kb
      simp only
      rw [wp_bind]
      refine wp_conseq (ins4_spec hf hA.1 hA.2.1 key bits v) ?_
      rintro p h' ⟨A', rfl, h2, h3, h4, h5, h6⟩
      have hP' : Rep6 h' P := hP.1.frame h5 fun a ha => h6 a (hP.1.lt ha)
      rw [← h3]
      refine wp_mk (h0 := h) (F := F) ⟨h2, ?_, fun x => ?_⟩ ⟨hP', hP.2⟩ h5 (fun x hx => ?_) (fun x hx => .inr (fP x hx))
      · rw [h3]; exact insert_wf' hA.2.1 _ _ _
      · have := h4 x; have := hA.2.2 x; grind
      · have := h4 x; have := fA x; grind
    | none =>
      simp only
      cases e6 : v6Pair n with
      | none => exact ⟨F, hT, fun x => .inr⟩
      | some k =>
        simp only
        obtain ⟨B, hsub, hB, eB0, _, ho⟩ := sub_found hP.1 k.msKey k.msBits
        rw [wp_bind]
        refine wp_conseq (exact6_spec hf hP.1 k.msKey k.msBits) ?_
        rintro _ _ ⟨rfl, rfl⟩
        rw [wp_bind, hsub]
        refine wp_conseq (insB_spec hf hB k.lsKey k.lsBits v) ?_
        rintro p h1 ⟨B', rfl, hB', eB, cB, kB⟩
        rw [wp_bind]
        refine wp_mono (W := fun a => h1.next ≤ a) (fun a ha => Nat.le_trans kB.1 ha) ?_ (resub_spec hf hP.1 hP.2 kB k.msKey k.msBits hB' ho cB)
        rintro p h' ⟨P', rfl, h2, h3, h4, h5, h6⟩
        rw [eB0, ← eB, ← mapT_insert, ← h3]
        refine wp_mk (h0 := _) (F := F) ⟨rep_frame hA.1 h5 fun a ha => k32.view_frame (h6 a (rep_lt hA.1 ha)), hA.2⟩ ⟨h2, fun x => ?_⟩ h5
          (fun x hx => .inr (fA x hx)) (fun x hx => ?_)
        · have := h4 x; have := hP.2 x; grind
        · have := h4 x; have := fP x; grind

theorem DeleteByNetP_spec {r : Ptr} {t : Option (Tree V)} {F : Addr → Prop} (hT : TRep h r t F) (n : Option IPNet) :
    wp (fun a => h.next ≤ a) (DeleteByNetP f r n) (fun r' h' => r'.2 = (UIP.DeleteByNet t n).2 ∧
      ∃ F', TRep h' r'.1 (UIP.DeleteByNet t n).1 F' ∧ ∀ x, F' x → h.next ≤ x ∨ F x) h := by
  unfold DeleteByNetP
  cases t with
  | none =>
    have : r = none := hT.1
    subst this
    exact ⟨rfl, F, hT, fun x => .inr⟩
  | some t =>
    have hr0 : r ≠ none := by obtain ⟨_, _, _, rfl, _⟩ := hT; simp
    simp only [hr0, if_false]
    cases n with
    | none => exact ⟨rfl, F, hT, fun x => .inr⟩
    | some n =>
      obtain ⟨A, P, _, hA, hP, ht, fA, fP, hr⟩ := hT.roots
      have hr := hr hr0
      simp only [Option.getD_some] at ht
      simp only [UIP.DeleteByNet]
      have t4 : t.root32 = erase A := congrArg Tree.root32 ht
      have t6 : t.root64 = mapT erase (erase P) := congrArg Tree.root64 ht
      cases e4 : v4Key n with
      | some kb =>
        obtain ⟨key, bits⟩ := kb
        simp only
        rw [wp_bind]
        apply hr h (Nat.le_refl _) fun _ _ => rfl
        rw [wp_bind]
        refine wp_conseq (del4_spec hf hA.1 hA.2.1 key bits) ?_
        rintro ⟨p, d⟩ h' ⟨A', h1, h2, h3, h4, h5, h6⟩
        simp only at h1 h3; subst h1
        rw [t4, t6, ← h3]
        cases d with
        | false =>
          exact ⟨rfl, F, hT.frame h5 fun a ha => h6 a (hT.lt ha), fun x => .inr⟩
        | true =>
          simp only [if_true]
          rw [wp_bind]
          apply hr h' h5 fun a ha => h6 a (hT.lt ha)
          rw [wp_bind]
          have hP' : Rep6 h' P := hP.1.frame h5 fun a ha => h6 a (hP.1.lt ha)
          refine wp_conseq (wp_mk (h0 := h) (F := F) ⟨h2, ?_, fun x => ?_⟩ ⟨hP', hP.2⟩ h5 (fun x hx => ?_) (fun x hx => .inr (fP x hx))) fun r' h' q => ⟨rfl, q⟩
          · rw [show erase A' = _ from congrArg Prod.fst h3]; exact delete_wf' hA.2.1 _ _
          · have := h4 x; have := hA.2.2 x; grind
          · have := h4 x; have := fA x; grind
      | none =>
        simp only
        cases e6 : v6Pair n with
        | none => exact ⟨rfl, F, hT, fun x => .inr⟩
        | some k =>
          simp only
          rw [wp_bind]
          apply hr h (Nat.le_refl _) fun _ _ => rfl
          rw [wp_bind]
          refine wp_conseq (exact6_spec hf hP.1 k.msKey k.msBits) ?_
          rintro _ h' ⟨eh, rfl⟩
          have eh := eh.symm
          subst eh
          rw [t4, t6]
          obtain ⟨B, hsub, hB, eB0, hor, ho⟩ := sub_found hP.1 k.msKey k.msBits
          have hEM := ExactMatch_map (erase : AB V → _) (erase P) k.msKey k.msBits
          rcases hor with eM | ⟨eM, _⟩
          · rw [eM] at hEM ⊢
            rw [hEM]
            simp only [Option.map_some]
            rw [wp_bind]
            refine wp_conseq (delB_spec hf hB k.lsKey k.lsBits) ?_
            rintro ⟨p, d⟩ h1 ⟨B', e1, hB', eB, cB, kB⟩
            simp only at e1 eB; subst e1
            rw [← eB]
            cases d with
            | false =>
              exact ⟨rfl, F, hT.frame kB.1 fun a ha => kB.2 a (hT.lt ha), fun x => .inr⟩
            | true =>
              simp only [if_true]
              rw [wp_bind]
              apply hr h1 kB.1 fun a ha => kB.2 a (hT.lt ha)
              cases B' with
              | nil =>
                simp only [erase_nil, BTree.isNil, if_true, ptr_nil]
                rw [wp_bind]
                have hP1 : Rep6 h1 P := hP.1.frame kB.1 fun a ha => kB.2 a (hP.1.lt ha)
                refine wp_mono (W := fun a => h1.next ≤ a) (fun a ha => Nat.le_trans kB.1 ha) ?_ (del6_spec hf hP1 k.msKey k.msBits)
                rintro ⟨p, d⟩ h' ⟨P', h1', h2, h3, h4, h5, h6⟩
                simp only at h1' h3; subst h1'
                have h3 : erase P' = _ := congrArg Prod.fst h3
                simp only
                rw [wp_bind, Delete_map, ← h3]
                have kk := kB.1
                refine wp_conseq (wp_mk (h0 := _) (F := F) ⟨rep_frame hA.1 (Nat.le_trans kB.1 h5) fun a ha => k32.view_frame ((h6 a (Nat.lt_of_lt_of_le (rep_lt hA.1 ha) kB.1)).trans (kB.2 a (rep_lt hA.1 ha))), hA.2⟩
                  ⟨h2, fun x => ?_⟩ (Nat.le_trans kB.1 h5)
                  (fun x hx => .inr (fA x hx)) (fun x hx => ?_)) fun r' h' q => ⟨rfl, q⟩
                · have := h4 x; have := hP.2 x; grind
                · have := h4 x; have := fP x; grind
              | node ad l r' =>
                simp only [erase_node, BTree.isNil, Bool.false_eq_true, if_false, ptr_node, reduceCtorEq]
                rw [wp_bind, ← ptr_node ad l r']
                refine wp_mono (W := fun a => h1.next ≤ a) (fun a ha => Nat.le_trans kB.1 ha) ?_ (resub_spec hf hP.1 hP.2 kB k.msKey k.msBits hB' ho cB)
                rintro p h' ⟨P', rfl, h2, h3, h4, h5, h6⟩
                rw [wp_bind, ← erase_node ad, ← mapT_insert, ← h3]
                refine wp_conseq (wp_mk (h0 := _) (F := F) ⟨rep_frame hA.1 h5 fun a ha => k32.view_frame (h6 a (rep_lt hA.1 ha)), hA.2⟩ ⟨h2, fun x => ?_⟩ h5
                  (fun x hx => .inr (fA x hx)) (fun x hx => ?_)) fun r' h' q => ⟨rfl, q⟩
                · have := h4 x; have := hP.2 x; grind
                · have := h4 x; have := fP x; grind
          · rw [eM] at hEM ⊢
            rw [hEM]
            simp only [Option.map_none]
            exact ⟨rfl, F, hT, fun x => .inr⟩
end

end Verif.UIPHeap
