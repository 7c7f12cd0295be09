import Verif.IPHeap.Ops

/-! # The copy-on-write and reading methods of iptree, on memory, do what the functional model says -/

namespace Verif.IPHeap
open Verif Verif.Heap Verif.Heap.Prog Verif.Heap.ATree Verif.Num Verif.NumHeap Verif.IP

variable {V : Type}

/-- The roots of an object. -/
theorem TRep.roots {h : Heap (IPD V)} {r : Ptr} {t : Option (Tree V)} {F : Addr → Prop} (hT : TRep h r t F) :
    ∃ A P, (∀ W Q, Q (ptr A, ptr P) h → wp W (rootsOrNilP r) Q h) ∧ (r ≠ none → ∀ W Q, Q (ptr A, ptr P) h → wp W (rootsP r) Q h) ∧
      (Rep (k32.view h) A ∧ WF [] (erase A) ∧ ∀ x, cnt x A ≤ 1) ∧
      (Rep6 h P ∧ ∀ x, tot x P ≤ 1) ∧ t.getD ⟨.nil, .nil⟩ = ⟨erase A, mapT toTV (erase P)⟩ ∧ (∀ x, 1 ≤ cnt x A → F x) ∧ ∀ x, 1 ≤ tot x P → F x := by
  cases t with
  | none =>
    obtain ⟨rfl, _⟩ := hT
    exact ⟨.nil, .nil, fun W Q q => wp_rootsOrNilP_none.2 q, fun q => (q rfl).elim, ⟨trivial, trivial, by simp⟩, ⟨rep6_nil h, by simp [tot]⟩, rfl,
      by simp, by simp [tot]⟩
  | some t =>
    obtain ⟨b, A, P, rfl, h5, h1, h2, h3, h9, h4⟩ := hT
    exact ⟨A, P, fun W Q q => (wp_rootsOrNilP_some h5).2 q, fun _ W Q q => (wp_rootsP h5).2 q, h2, h3, h9, fun x hx => (h4 x).2 (.inr (.inl hx)), fun x hx => (h4 x).2 (.inr (.inr hx))⟩

theorem Rep6.push {h : Heap (IPD V)} {P : ATree (ND 64 (AV V))} (hP : Rep6 h P) (c : Cell (IPD V)) : Rep6 (h.push c) P := by
  refine hP.frame (by simp) fun a ha => ?_
  have := hP.lt ha
  rw [Heap.mem_push, if_neg (by omega)]

theorem rep4_push {h : Heap (IPD V)} {A : ATree (ND 32 V)} (hA : Rep (k32.view h) A) (c : Cell (IPD V)) : Rep (k32.view (h.push c)) A := by
  refine rep_frame hA (by simp) fun a ha => k32.view_frame ?_
  have : a < h.next := rep_lt hA ha
  rw [Heap.mem_push, if_neg (by omega)]

/-- A new `Tree` cell for two trees. -/
theorem wp_mk {W : Addr → Prop} {h0 h : Heap (IPD V)} {F : Addr → Prop} {A : ATree (ND 32 V)} {P : ATree (ND 64 (AV V))}
    (hA : Rep (k32.view h) A ∧ WF [] (erase A) ∧ ∀ x, cnt x A ≤ 1) (hP : Rep6 h P ∧ ∀ x, tot x P ≤ 1) (hn : h0.next ≤ h.next)
    (ha : ∀ x, 1 ≤ cnt x A → h0.next ≤ x ∨ F x) (hp : ∀ x, 1 ≤ tot x P → h0.next ≤ x ∨ F x) :
    wp W (newTreeP (ptr A) (ptr P)) (fun r h' => ∃ F', TRep h' r (some ⟨erase A, mapT toTV (erase P)⟩) F' ∧ ∀ x, F' x → h0.next ≤ x ∨ F x) h := by
  rw [wp_newTreeP]
  refine ⟨fun x => x = h.next ∨ 1 ≤ cnt x A ∨ 1 ≤ tot x P, ⟨h.next, A, P, rfl, by simp, by simp, ⟨rep4_push hA.1 _, hA.2⟩, ⟨hP.1.push _, hP.2⟩, rfl, fun _ => Iff.rfl⟩, ?_⟩
  rintro x (rfl | q | q)
  · exact .inl hn
  · exact ha x q
  · exact hp x q

/-- The nested tree found for a key, as a pointer and as a tree. -/
theorem sub_found {h : Heap (IPD V)} {P : ATree (ND 64 (AV V))} (hP : Rep6 h P) {k : BitVec 64} {b : Int} {s : NTree 64 V}
    (hs : subOf (Num.ExactMatch (mapT toTV (erase P)) k b) = some s) :
    ∃ B, (∀ W Q, Q (ptr B) h → wp W (subP ((Num.ExactMatch (erase P) k b).map toHV)) Q h) ∧ Sub h B ∧ s = erase B ∧
      ((Num.ExactMatch (erase P) k b = some (.sub B)) ∨ (Num.ExactMatch (erase P) k b = none ∧ B = .nil)) ∧
      ∀ x, cnt x B ≤ oldV (subCnt x) (erase P) k (clamp 64 b) := by
  rw [ExactMatch_map] at hs
  cases e : Num.ExactMatch (erase P) k b with
  | none =>
    simp only [e, Option.map_none, subOf, Option.some.injEq] at hs
    exact ⟨.nil, fun W Q q => q, ⟨trivial, trivial⟩, hs.symm, .inr ⟨rfl, rfl⟩, by simp⟩
  | some v =>
    cases v with
    | user u => simp [e, toTV, subOf] at hs
    | sub B =>
      simp only [e, Option.map_some, toTV, subOf, Option.some.injEq] at hs
      refine ⟨B, fun W Q q => q, hP.sub _ (vals_ExactMatch e), hs.symm, .inl rfl, fun x => ?_⟩
      unfold Num.ExactMatch Num.FindNode at e
      unfold oldV
      cases e' : exactMatch (erase P) k (clamp 64 b) with
      | nil => simp [e'] at e
      | node n l r => simp [e'] at e; simp [e, subCnt]

theorem mapT_insert [Inhabited V] (t : NTree 64 (AV V)) (k : BitVec 64) (b : Int) (v : AV V) :
    mapT toTV (Num.Insert t k b v) = Num.Insert (mapT toTV t) k b (toTV v) := (Insert_map toTV rfl t k b v).symm

section
variable [Inhabited V] {f : Nat} (hf : 66 ≤ f) {h : Heap (IPD V)}
include hf

/-- Replacing the tree nested under a key by one made of fresh nodes and nodes of the old one. -/
theorem resub_spec {h0 : Heap (IPD V)} {P : ATree (ND 64 (AV V))} (hP0 : Rep6 h0 P) (hc : ∀ x, tot x P ≤ 1) (hk : Kept h0 h) (k : BitVec 64) (b : Int) {B B' : ATree (ND 64 V)}
    (hB' : Sub h B') (ho : ∀ x, cnt x B ≤ oldV (subCnt x) (erase P) k (clamp 64 b))
    (hb : ∀ x, cnt x B' ≤ if h0.next ≤ x then 1 else cnt x B) :
    wp (fun a => h.next ≤ a) (on64 (InsertP f (ptr P) k b (.sub (ptr B')))) (fun p h' => ∃ P', p = ptr P' ∧ Rep6 h' P' ∧
      erase P' = Num.Insert (erase P) k b (.sub B') ∧
      (∀ x, tot x P' ≤ if h0.next ≤ x then 1 else tot x P) ∧ Kept h0 h') h := by
  have hP : Rep6 h P := hP0.frame hk.1 fun a ha => hk.2 a (hP0.lt ha)
  refine wp_conseq (ins6_spec hf hP k b (.sub B') hB') ?_
  rintro p h' ⟨P', h1, h2, h3, h4, h5⟩
  refine ⟨P', h1, h2, h3, fun x => ?_, ⟨Nat.le_trans hk.1 h5.1, fun a ha => (h5.2 a (Nat.lt_of_lt_of_le ha hk.1)).trans (hk.2 a ha)⟩⟩
  have h4 := h4 x
  have hb := hb x
  have ho := ho x
  have hc := hc x
  have hz := fun q => hP0.zero (a := x) q
  have := hk.1
  simp only [subCnt] at h4 ho
  have : h.next ≤ x → h0.next ≤ x := fun q => by omega
  by_cases q1 : h0.next ≤ x
  · have hz := hz q1
    simp only [q1, if_true] at hb ⊢
    split at h4 <;> omega
  · have q2 : ¬ h.next ≤ x := by omega
    simp only [q1, q2, if_false] at *
    omega

theorem InsertNetP_spec {r : Ptr} {t t' : Option (Tree V)} {F : Addr → Prop} (hT : TRep h r t F) {n : Option IPNet} {v : V}
    (hi : InsertNet t n v = some t') :
    wp (fun a => h.next ≤ a) (InsertNetP f r n v) (fun r' h' => ∃ F', TRep h' r' t' F' ∧ ∀ x, F' x → h.next ≤ x ∨ F x) h := by
  cases n with
  | none =>
    simp only [InsertNet, Option.some.injEq] at hi; subst hi
    exact ⟨F, hT, fun x => .inr⟩
  | some n =>
    obtain ⟨A, P, hr, _, hA, hP, ht, fA, fP⟩ := hT.roots
    simp only [InsertNet, ht] at hi
    unfold InsertNetP
    cases e4 : v4Key n with
    | some kb =>
      obtain ⟨key, bits⟩ := kb
      simp only [e4, Option.some.injEq] at hi ⊢
      subst hi
      rw [wp_bind]
      apply hr
      rw [wp_bind]
      refine wp_conseq (ins4_spec hf hA.1 hA.2.1 key bits v) ?_
      rintro p h' ⟨A', rfl, h2, h3, h4, h5, h6⟩
      have hP' : Rep6 h' P := hP.1.frame h5 fun a ha => h6 a (hP.1.lt ha)
      rw [← h3]
      refine wp_mk (h0 := h) (F := F) ⟨h2, ?_, fun x => ?_⟩ ⟨hP', hP.2⟩ h5 (fun x hx => ?_) (fun x hx => .inr (fP x hx))
      · rw [h3]; exact insert_wf' hA.2.1 _ _ _
      · have := h4 x; have := hA.2.2 x; grind
      · have := h4 x; have := fA x; grind
    | none =>
      simp only [e4] at hi ⊢
      cases e6 : v6Pair n with
      | none =>
        simp only [e6, Option.some.injEq] at hi ⊢
        subst hi
        exact ⟨F, hT, fun x => .inr⟩
      | some k =>
        simp only [e6] at hi ⊢
        rw [wp_bind]
        apply hr
        by_cases hm : k.msBits < 64
        · simp only [hm, if_true, Option.some.injEq] at hi ⊢
          subst hi
          rw [wp_bind]
          refine wp_conseq (ins6_spec hf hP.1 k.msKey k.msBits (.user v) trivial) ?_
          rintro p h' ⟨P', rfl, h2, h3, h4, h5, h6⟩
          rw [show (TV.user v) = toTV (.user v) from rfl, ← mapT_insert, ← h3]
          refine wp_mk (h0 := h) (F := F) ⟨rep_frame hA.1 h5 fun a ha => k32.view_frame (h6 a (rep_lt hA.1 ha)), hA.2⟩ ⟨h2, fun x => ?_⟩ h5
            (fun x hx => .inr (fA x hx)) (fun x hx => ?_)
          · have := h4 x; have := hP.2 x; simp only [subCnt] at *; grind
          · have := h4 x; have := fP x; simp only [subCnt] at *; grind
        · simp only [hm, if_false, Option.map_eq_some_iff] at hi ⊢
          obtain ⟨s, hs, rfl⟩ := hi
          obtain ⟨B, hsub, hB, rfl, _, ho⟩ := sub_found hP.1 hs
          rw [wp_bind]
          refine wp_conseq (exact6_spec hf hP.1 k.msKey k.msBits) ?_
          rintro _ _ ⟨rfl, rfl⟩
          rw [wp_bind]
          apply hsub
          rw [wp_bind]
          refine wp_conseq (insB_spec hf hB k.lsKey k.lsBits v) ?_
          rintro p h1 ⟨B', rfl, hB', eB, cB, kB⟩
          rw [wp_bind]
          refine wp_mono (W := fun a => h1.next ≤ a) (fun a ha => Nat.le_trans kB.1 ha) ?_ (resub_spec hf hP.1 hP.2 kB k.msKey k.msBits hB' ho cB)
          rintro p h' ⟨P', rfl, h2, h3, h4, h5, h6⟩
          rw [← eB, show (TV.sub (erase B')) = toTV (.sub B') from rfl, ← mapT_insert, ← h3]
          refine wp_mk (h0 := _) (F := F) ⟨rep_frame hA.1 h5 fun a ha => k32.view_frame (h6 a (rep_lt hA.1 ha)), hA.2⟩ ⟨h2, fun x => ?_⟩ h5
            (fun x hx => .inr (fA x hx)) (fun x hx => ?_)
          · have := h4 x; have := hP.2 x; grind
          · have := h4 x; have := fP x; grind

theorem DeleteByNetP_spec {r : Ptr} {t t' : Option (Tree V)} {b : Bool} {F : Addr → Prop} (hT : TRep h r t F) {n : Option IPNet}
    (hi : DeleteByNet t n = some (t', b)) :
    wp (fun a => h.next ≤ a) (DeleteByNetP f r n) (fun r' h' => r'.2 = b ∧ ∃ F', TRep h' r'.1 t' F' ∧ ∀ x, F' x → h.next ≤ x ∨ F x) h := by
  unfold DeleteByNetP
  cases t with
  | none =>
    simp only [DeleteByNet, Option.some.injEq, Prod.mk.injEq] at hi; obtain ⟨rfl, rfl⟩ := hi
    have : r = none := hT.1
    subst this
    exact ⟨rfl, F, hT, fun x => .inr⟩
  | some t =>
    have hr0 : r ≠ none := by obtain ⟨_, _, _, rfl, _⟩ := hT; simp
    simp only [hr0, if_false]
    cases n with
    | none =>
      simp only [DeleteByNet, Option.some.injEq, Prod.mk.injEq] at hi; obtain ⟨rfl, rfl⟩ := hi
      exact ⟨rfl, F, hT, fun x => .inr⟩
    | some n =>
      obtain ⟨A, P, _, hr, hA, hP, ht, fA, fP⟩ := hT.roots
      have hr := hr hr0
      simp only [Option.getD_some] at ht
      simp only [DeleteByNet] at hi
      cases e4 : v4Key n with
      | some kb =>
        obtain ⟨key, bits⟩ := kb
        simp only [e4] at hi ⊢
        rw [wp_bind]
        apply hr
        rw [wp_bind]
        refine wp_conseq (del4_spec hf hA.1 hA.2.1 key bits) ?_
        rintro ⟨p, d⟩ h' ⟨A', h1, h2, h3, h4, h5, h6⟩
        simp only at h1 h3; subst h1
        rw [show t.root32 = erase A from congrArg Tree.root32 ht, ← h3, show t.root64 = mapT toTV (erase P) from congrArg Tree.root64 ht] at hi
        cases d with
        | false =>
          simp only [Option.some.injEq, Prod.mk.injEq] at hi ⊢
          obtain ⟨rfl, rfl⟩ := hi
          exact ⟨rfl, F, hT.frame h5 fun a ha => h6 a (hT.lt ha), fun x => .inr⟩
        | true =>
          simp only [Option.some.injEq, Prod.mk.injEq] at hi ⊢
          obtain ⟨rfl, rfl⟩ := hi
          simp only [if_true]
          rw [wp_bind]
          have hP' : Rep6 h' P := hP.1.frame h5 fun a ha => h6 a (hP.1.lt ha)
          refine wp_conseq (wp_mk (h0 := h) (F := F) ⟨h2, ?_, fun x => ?_⟩ ⟨hP', hP.2⟩ h5 (fun x hx => ?_) (fun x hx => .inr (fP x hx))) fun r' h' q => ⟨rfl, q⟩
          · rw [show erase A' = _ from congrArg Prod.fst h3]; exact delete_wf' hA.2.1 _ _
          · have := h4 x; have := hA.2.2 x; grind
          · have := h4 x; have := fA x; grind
      | none =>
        simp only [e4] at hi ⊢
        cases e6 : v6Pair n with
        | none =>
          simp only [e6, Option.some.injEq, Prod.mk.injEq] at hi ⊢
          obtain ⟨rfl, rfl⟩ := hi
          exact ⟨rfl, F, hT, fun x => .inr⟩
        | some k =>
          simp only [e6] at hi ⊢
          rw [wp_bind]
          apply hr
          have t4 : t.root32 = erase A := congrArg Tree.root32 ht
          have t6 : t.root64 = mapT toTV (erase P) := congrArg Tree.root64 ht
          by_cases hm : k.msBits < 64
          · simp only [hm, if_true] at hi ⊢
            rw [wp_bind]
            refine wp_conseq (del6_spec hf hP.1 k.msKey k.msBits) ?_
            rintro ⟨p, d⟩ h' ⟨P', h1, h2, h3, h4, h5, h6⟩
            simp only at h1 h3; subst h1
            rw [t4, t6, Delete_map, ← h3] at hi
            cases d with
            | false =>
              simp only [Option.some.injEq, Prod.mk.injEq] at hi ⊢
              obtain ⟨rfl, rfl⟩ := hi
              exact ⟨rfl, F, hT.frame h5 fun a ha => h6 a (hT.lt ha), fun x => .inr⟩
            | true =>
              simp only [Option.some.injEq, Prod.mk.injEq] at hi ⊢
              obtain ⟨rfl, rfl⟩ := hi
              simp only [if_true]
              rw [wp_bind]
              refine wp_conseq (wp_mk (h0 := h) (F := F) ⟨rep_frame hA.1 h5 fun a ha => k32.view_frame (h6 a (rep_lt hA.1 ha)), hA.2⟩ ⟨h2, fun x => ?_⟩ h5
                (fun x hx => .inr (fA x hx)) (fun x hx => ?_)) fun r' h' q => ⟨rfl, q⟩
              · have := h4 x; have := hP.2 x; grind
              · have := h4 x; have := fP x; grind
          · simp only [hm, if_false] at hi ⊢
            rw [wp_bind]
            refine wp_conseq (exact6_spec hf hP.1 k.msKey k.msBits) ?_
            rintro _ _ ⟨rfl, rfl⟩
            rw [t4, t6] at hi
            have hEM := ExactMatch_map (toTV (V := V)) (erase P) k.msKey k.msBits
            cases eM : Num.ExactMatch (erase P) k.msKey k.msBits with
            | none =>
              rw [eM] at hEM
              rw [hEM] at hi
              simp only [Option.map_none, Option.some.injEq, Prod.mk.injEq] at hi ⊢
              obtain ⟨rfl, rfl⟩ := hi
              exact ⟨rfl, F, hT, fun x => .inr⟩
            | some av =>
              rw [eM] at hEM
              rw [hEM] at hi
              simp only [Option.map_some, Option.map_eq_some_iff] at hi ⊢
              obtain ⟨s, hs, hi⟩ := hi
              obtain ⟨B, hsub, hB, rfl, _, ho⟩ := sub_found hP.1 (by rw [hEM]; exact hs)
              rw [eM] at hsub
              rw [wp_bind]
              apply hsub
              rw [wp_bind]
              refine wp_conseq (delB_spec hf hB k.lsKey k.lsBits) ?_
              rintro ⟨p, d⟩ h1 ⟨B', e1, hB', eB, cB, kB⟩
              simp only at e1 eB; subst e1
              rw [← eB] at hi
              cases d with
              | false =>
                simp only [Prod.mk.injEq] at hi ⊢
                obtain ⟨rfl, rfl⟩ := hi
                exact ⟨rfl, F, hT.frame kB.1 fun a ha => kB.2 a (hT.lt ha), fun x => .inr⟩
              | true =>
                simp only [if_true] at hi ⊢
                cases B' with
                | nil =>
                  simp only [erase_nil, BTree.isNil, if_true, Prod.mk.injEq] at hi ⊢
                  obtain ⟨rfl, rfl⟩ := hi
                  simp only [ptr_nil, if_true]
                  rw [wp_bind]
                  have hP1 : Rep6 h1 P := hP.1.frame kB.1 fun a ha => kB.2 a (hP.1.lt ha)
                  refine wp_mono (W := fun a => h1.next ≤ a) (fun a ha => Nat.le_trans kB.1 ha) ?_ (del6_spec hf hP1 k.msKey k.msBits)
                  rintro ⟨p, d⟩ h' ⟨P', h1', h2, h3, h4, h5, h6⟩
                  simp only at h1' h3; subst h1'
                  have h3 : erase P' = _ := congrArg Prod.fst h3
                  simp only
                  rw [wp_bind, Delete_map, ← h3]
                  have kk := kB.1
                  refine wp_conseq (wp_mk (h0 := _) (F := F) ⟨rep_frame hA.1 (Nat.le_trans kB.1 h5) fun a ha => k32.view_frame ((h6 a (Nat.lt_of_lt_of_le (rep_lt hA.1 ha) kB.1)).trans (kB.2 a (rep_lt hA.1 ha))), hA.2⟩
                    ⟨h2, fun x => ?_⟩ (Nat.le_trans kB.1 h5)
                    (fun x hx => .inr (fA x hx)) (fun x hx => ?_)) fun r' h' q => ⟨rfl, q⟩
                  · have := h4 x; have := hP.2 x; grind
                  · have := h4 x; have := fP x; grind
                | node ad l r' =>
                  simp only [erase_node, BTree.isNil, Bool.false_eq_true, if_false, Prod.mk.injEq] at hi ⊢
                  obtain ⟨rfl, rfl⟩ := hi
                  simp only [ptr_node, reduceCtorEq, if_false]
                  rw [wp_bind]
                  refine wp_mono (W := fun a => h1.next ≤ a) (fun a ha => Nat.le_trans kB.1 ha) ?_ (resub_spec hf hP.1 hP.2 kB k.msKey k.msBits hB' ho cB)
                  rintro p h' ⟨P', rfl, h2, h3, h4, h5, h6⟩
                  rw [wp_bind, ← erase_node ad, show (TV.sub (erase (.node ad l r'))) = toTV (.sub (.node ad l r')) from rfl, ← mapT_insert, ← h3]
                  refine wp_conseq (wp_mk (h0 := _) (F := F) ⟨rep_frame hA.1 h5 fun a ha => k32.view_frame (h6 a (rep_lt hA.1 ha)), hA.2⟩ ⟨h2, fun x => ?_⟩ h5
                    (fun x hx => .inr (fA x hx)) (fun x hx => ?_)) fun r' h' q => ⟨rfl, q⟩
                  · have := h4 x; have := hP.2 x; grind
                  · have := h4 x; have := fP x; grind
end

end Verif.IPHeap
