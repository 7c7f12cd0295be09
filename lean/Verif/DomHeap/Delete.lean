import Verif.DomHeap.Insert

/-! # Delete and DeleteSubdomains of domaintree on memory -/

namespace Verif.DomHeap
open Verif Verif.Heap Verif.Heap.Prog Verif.Heap.ATree Verif.RB Verif.RBHeap Verif.DLHeap Verif.DL Verif.Domain Verif.DomainText Verif.DomTree

variable {V : Type}

/-- The way down from the root `ra` to the node at `a`, as kept by `getBranch`: labels, parent pointers and the parents, last first. -/
inductive Up (m : Nat) (h : Heap (DD V)) (K : Nat) (ra : Addr) (rn : Node V) (rF : Addr → Prop) :
    Nat → List Bytes → Addr → Node V → (Addr → Prop) → List Ptr → List (Node V) → Prop where
  | root : NRep m h K ra rn rF → Up m h K ra rn rF K [] ra rn rF [] []
  | step {k : Nat} {labs : List Bytes} {a : Addr} {n : Node V} {F : Addr → Prop} {ps : List Ptr} {ns : List (Node V)} {t : Ptr} {A : ATree (RD Bytes Ptr)}
      {fn : Ptr → Node V} {ff : Bytes → Addr → Prop} {l : Bytes} {c : Addr} : Up m h K ra rn rF (k + 1) labs a n F ps ns →
      NOpen m h (NRep m h k) a n F t A fn ff → at_ A l = some (some c) →
      Up m h K ra rn rF k (l :: labs) c (fn (some c)) (ff l) (some a :: ps) (n :: ns)

section
variable {m K f : Nat} {h : Heap (DD V)} {ra : Addr} {rn : Node V} {rF : Addr → Prop}

theorem Up.rep {k : Nat} {labs : List Bytes} {a : Addr} {n : Node V} {F : Addr → Prop} {ps : List Ptr} {ns : List (Node V)}
    (u : Up m h K ra rn rF k labs a n F ps ns) : NRep m h k a n F := by
  cases u with
  | root r => exact r
  | step u o hc =>
    obtain ⟨_, e, r⟩ := o.sub _ _ hc
    cases e
    exact r

theorem Up.len {k : Nat} {labs : List Bytes} {a : Addr} {n : Node V} {F : Addr → Prop} {ps : List Ptr} {ns : List (Node V)}
    (u : Up m h K ra rn rF k labs a n F ps ns) : ps.length = ns.length := by
  induction u with
  | root r => rfl
  | step u o hc ih => simp [ih]

theorem Up.foot {k : Nat} {labs : List Bytes} {a : Addr} {n : Node V} {F : Addr → Prop} {ps : List Ptr} {ns : List (Node V)}
    (u : Up m h K ra rn rF k labs a n F ps ns) {x : Addr} (hx : F x) : rF x := by
  induction u with
  | root r => exact hx
  | step u o hc ih => exact ih ((o.foot x).2 (.inr (.inr ⟨_, hx⟩)))

theorem Up.rootRep {k : Nat} {labs : List Bytes} {a : Addr} {n : Node V} {F : Addr → Prop} {ps : List Ptr} {ns : List (Node V)}
    (u : Up m h K ra rn rF k labs a n F ps ns) : NRep m h K ra rn rF := by
  induction u with
  | root r => exact r
  | step u o hc ih => exact ih

/-- The walk of `getBranch`. -/
theorem branchWalk {W : Addr → Prop} (hf : tall m < f) (ls : List Bytes) : ∀ (k : Nat) (labs : List Bytes) (a : Addr) (n : Node V) (F : Addr → Prop) (ps : List Ptr) (ns : List (Node V)),
    Up m h K ra rn rF k labs a n F ps ns → ls.length < k → (∀ st, foldStop branchStep (labs, n, ns) ls ≠ (st, some .panic)) →
    wp W (foldP (branchStepP f) (labs, some a, ps) ls) (fun x h' => h' = h ∧
      ((∃ st, foldStop branchStep (labs, n, ns) ls = (st, some .notFound) ∧ x.2 = some .notFound) ∨
       ∃ k' labs' a' n' F' ps' ns', Up m h K ra rn rF k' labs' a' n' F' ps' ns' ∧ 0 < k' ∧ x = ((labs', some a', ps'), none) ∧
        foldStop branchStep (labs, n, ns) ls = ((labs', n', ns'), none))) h := by
  induction ls with
  | nil =>
    intro k labs a n F ps ns u hk hp
    exact ⟨rfl, .inr ⟨k, labs, a, n, F, ps, ns, u, hk, rfl, rfl⟩⟩
  | cons l ls ih =>
    intro k labs a n F ps ns u hk hp
    simp only [List.length_cons] at hk
    obtain ⟨k, rfl⟩ : ∃ j, k = j + 1 := ⟨k - 1, by omega⟩
    obtain ⟨t, A, fn, ff, o⟩ := u.rep
    simp only [foldP, branchStepP]
    rw [wp_bind, wp_bind, wp_nodeP o.cell, wp_bind]
    refine wp_conseq (RawGetP_spec o.lab hf l) ?_
    rintro _ h0 ⟨rfl, rfl⟩
    have hget := o.rawGet l
    simp only [foldStop, branchStep, hget] at hp ⊢
    cases e : at_ A l with
    | none =>
      have e' : RB.get cmpLabel (erase A) l = none := e
      simp only [e', wp_pure, Option.map_none]
      exact ⟨trivial, .inl ⟨_, rfl, trivial⟩⟩
    | some p =>
      obtain ⟨c, rfl, r⟩ := o.sub l p e
      have e' : RB.get cmpLabel (erase A) l = some (some c) := e
      simp only [e, Option.map_some] at hp
      simp only [e', assertP, Option.map_some]
      rw [wp_bind, wp_pure, u.len]
      by_cases hM : MaxLabels ≤ ns.length + 1
      · simp [hM] at hp
      · simp only [hM, if_false, wp_pure] at hp ⊢
        exact ih k (l :: labs) c (fn (some c)) (ff l) (some a :: ps) (n :: ns) (.step u o e) (by omega) hp

theorem emptyP_spec {W : Addr → Prop} {k : Nat} {a : Addr} {n : Node V} {F : Addr → Prop} (hN : NRep m h k a n F) :
    wp W (emptyP (some a)) (fun r h' => h' = h ∧ r = (n.val.isNone && DL.IsEmpty n.branches)) h := by
  cases k with
  | zero => exact hN.elim
  | succ k =>
    obtain ⟨t, A, fn, ff, o⟩ := hN
    unfold emptyP
    rw [wp_bind, wp_nodeP o.cell]
    cases e : n.val.isNone with
    | false => exact ⟨rfl, rfl⟩
    | true =>
      simp only [if_true, Bool.true_and]
      refine wp_conseq (IsEmptyP_spec o.lab) ?_
      rintro _ h' ⟨e1, rfl⟩
      refine ⟨e1, ?_⟩
      rw [DL.IsEmpty, o.br, brOf_root o.lab, isNil_mapT]

/-- Rebuilding the way up. -/
theorem copyBranchP_spec (hf : 2 * tall m + 3 ≤ f) {k : Nat} {labs : List Bytes} {a : Addr} {n0 : Node V} {F : Addr → Prop} {ps : List Ptr} {ns : List (Node V)}
    (u : Up m h K ra rn rF k labs a n0 F ps ns) : ∀ (h1 : Heap (DD V)) (c : Addr) (n r : Node V) (Fc : Addr → Prop), h.next ≤ h1.next → (∀ x, x < h.next → h1.mem x = h.mem x) →
    NRep (m + 1) h1 k c n Fc → (∀ x, Fc x → h.next ≤ x ∨ F x) → h.next ≤ c → copyBranch n labs ns = some r →
    wp (fun x => h.next ≤ x) (copyBranchP f (some c) labs ps) (fun q h' => ∃ F', PRep (m + 1) h' K q (some r) F' ∧ ∀ x, F' x → h.next ≤ x ∨ rF x) h1 := by
  induction u with
  | root r0 =>
    intro h1 c n r Fc hn hm hN hF hc hr
    simp only [copyBranch, Option.some.injEq] at hr
    subst hr
    exact ⟨Fc, hN, hF⟩
  | @step k labs a p F ps ns t A fn ff l ac u o hac ih =>
    intro h1 c n r Fc hn hm hN hF hc hr
    simp only [copyBranchP]
    have o1 := o.frame (h' := h1) hn fun x hx => hm x (o.flt hx)
    rw [wp_bind]
    refine wp_conseq (copyP_spec o1) ?_
    rintro _ h2 ⟨rfl, rfl, o2⟩
    rw [wp_bind]
    unfold relinkP
    rw [wp_bind]
    have hm2 : ∀ x, x < h1.next → (h1.push ⟨DD.node p.val, t, none⟩).mem x = h1.mem x := by
      intro x hx; rw [Heap.mem_push, if_neg (by omega)]
    have hN2 := hN.frame (h' := h1.push ⟨DD.node p.val, t, none⟩) (by simp) fun x hx => hm2 x (hN.lt hx)
    refine wp_conseq (emptyP_spec hN2) ?_
    rintro _ h2 ⟨rfl, rfl⟩
    have hF0 : ∀ x, F x → x < h.next := fun x hx => o.flt hx
    have hF2 : ∀ x, (x = h1.next ∨ LFoot t A x ∨ ∃ l, ff l x) → x = h1.next ∨ F x := by
      rintro x (q | q)
      · exact .inl q
      · exact .inr ((o.foot x).2 (.inr q))
    generalize hh2 : h1.push ⟨DD.node p.val, t, none⟩ = h2 at *
    have n2 : h2.next = h1.next + 1 := by rw [← hh2]; simp
    cases he : n.val.isNone && DL.IsEmpty n.branches with
    | true =>
      simp only [copyBranch, he, if_true] at hr ⊢
      refine wp_mono (W := fun x => x = h1.next ∨ h2.next ≤ x) ?_ ?_ (wp_frame (delBranch_spec o2 (by omega) l))
      · rintro x (q | q) <;> omega
      rintro _ h3 ⟨⟨F3, r3, f3⟩, n3, m3⟩
      refine ih h3 h1.next _ r F3 (by omega) (fun x hx => ?_) (r3.mono (by omega)) (fun x hx => ?_) hn hr
      · rw [m3 x (by omega) (by omega), hm2 x (by omega), hm x hx]
      · rcases f3 x hx with q | q
        · exact .inl (by omega)
        · rcases hF2 x q.1 with q | q
          · exact .inl (by omega)
          · exact .inr q
    | false =>
      simp only [copyBranch, he, Bool.false_eq_true, if_false, Option.bind_eq_some_iff] at hr ⊢
      obtain ⟨br, hr1, hr2⟩ := hr
      have hcl := hN.lt hN.self
      have hcF : ¬ (c = h1.next ∨ LFoot t A c ∨ ∃ l, ff l c) := by
        intro q
        rcases hF2 c q with q | q
        · omega
        · have := hF0 c q; omega
      refine wp_mono (W := fun x => x = h1.next ∨ h2.next ≤ x) ?_ ?_ (wp_frame (setBranch_spec o2 hf hcF l))
      · rintro x (q | q) <;> omega
      rintro _ h3 ⟨⟨F', G, hole, hG, hlt, hsub⟩, n3, m3⟩
      obtain ⟨br', g1, g2⟩ := hG n
      rw [hr1] at g1
      cases g1
      have hFc : ∀ x, Fc x → x < h1.next := fun x hx => hN.lt hx
      have hN3 := hN2.frame (h' := h3) n3 fun x hx => m3 x (by have := hFc x hx; omega) (by have := hFc x hx; omega)
      obtain ⟨Fr, r1, r2⟩ := hole (m + 1) h3 n Fc (by omega) (Nat.le_refl _) (fun _ _ => rfl) hN3 (by
        intro x hx hx'
        have := hFc x hx
        rcases hsub x hx' with q | q
        · omega
        · rcases hF2 x q.1 with q' | q'
          · omega
          · have := hF0 x q'
            rcases hF x hx with q'' | q''
            · omega
            · exact q.2 q'')
      rw [g2] at r1
      refine ih h3 h1.next _ r Fr (by omega) (fun x hx => ?_) r1 (fun x hx => ?_) hn hr2
      · rw [m3 x (by omega) (by omega), hm2 x (by omega), hm x hx]
      · rcases r2 x hx with q | q
        · rcases hsub x q with q | q
          · exact .inl (by omega)
          · rcases hF2 x q.1 with q | q
            · exact .inl (by omega)
            · exact .inr q
        · rcases hF x q with q | q
          · exact .inl q
          · exact .inr ((o.foot x).2 (.inr (.inr ⟨l, q⟩)))

/-- `getBranch` on a name with these labels. -/
theorem getBranchP_spec {W : Addr → Prop} (hf : tall m < f) {d : Name} {ls : List Bytes} (hN : NRep m h K ra rn rF) (hd : Holds d ls) (hk : ls.length < K)
    {b : Option (List Bytes × Node V × List (Node V))} (hb : getBranch rn d = some b) :
    wp W (getBranchP f (some ra) d) (fun x h' => h' = h ∧ ((b = none ∧ x = none) ∨
      ∃ k labs a n F ps ns, Up m h K ra rn rF k labs a n F ps ns ∧ 0 < k ∧ x = some (labs, some a, ps) ∧ b = some (labs, n, ns))) h := by
  unfold getBranchP
  rw [getLabelsP hd, wp_bind]
  unfold getBranch at hb
  rw [hd.getLabels] at hb
  refine wp_conseq (branchWalk (f := f) hf ls K [] ra rn rF [] [] (.root hN) hk ?_) ?_
  · intro st e
    rw [e] at hb
    simp at hb
  · rintro x h' ⟨rfl, ⟨st, e1, e2⟩ | ⟨k', labs', a', n', F', ps', ns', u, hk', e1, e2⟩⟩
    · rw [e1] at hb
      simp only [Option.some.injEq] at hb
      rw [e2]
      exact ⟨rfl, .inl ⟨hb.symm, rfl⟩⟩
    · rw [e2] at hb
      simp only [Option.some.injEq] at hb
      subst e1
      exact ⟨rfl, .inr ⟨k', labs', a', n', F', ps', ns', u, hk', rfl, hb.symm⟩⟩

theorem noneBelowP_spec {W : Addr → Prop} {k : Nat} {a : Addr} {n : Node V} {F : Addr → Prop} (hN : NRep m h k a n F) (hR : NRep m h K ra rn rF) :
    wp W (noneBelowP (some a) (some ra)) (fun r h' => h' = h ∧ r = (n.val.isNone && DL.IsEmpty rn.branches)) h := by
  cases k with
  | zero => exact hN.elim
  | succ k =>
    cases K with
    | zero => exact hR.elim
    | succ K =>
      obtain ⟨t, A, fn, ff, o⟩ := hN
      obtain ⟨t', A', fn', ff', o'⟩ := hR
      unfold noneBelowP
      rw [wp_bind, wp_nodeP o.cell]
      cases e : n.val.isNone with
      | false => exact ⟨rfl, rfl⟩
      | true =>
        simp only [if_true, Bool.true_and]
        rw [wp_bind, wp_nodeP o'.cell]
        refine wp_conseq (IsEmptyP_spec o'.lab) ?_
        rintro _ h' ⟨e1, rfl⟩
        refine ⟨e1, ?_⟩
        rw [DL.IsEmpty, o'.br, brOf_root o'.lab, isNil_mapT]

/-- The functional counterpart of `dropBranchP`. -/
def dropF : List Bytes → List (Node V) → Option (Node V)
  | label :: labels, p :: nodes => copyBranch (.mk (DL.RawDelete p.branches label).1 p.val) labels nodes
  | _, _ => some .new

theorem dropBranchP_spec (hf : 2 * tall m + 3 ≤ f) {k : Nat} {labs : List Bytes} {a : Addr} {n0 r : Node V} {F : Addr → Prop} {ps : List Ptr} {ns : List (Node V)}
    (hK : 0 < K) (u : Up m h K ra rn rF k labs a n0 F ps ns)
    (hr : dropF labs ns = some r) :
    wp (fun x => h.next ≤ x) (dropBranchP f labs ps) (fun q h' => ∃ F', PRep (m + 1) h' K q (some r) F' ∧ ∀ x, F' x → h.next ≤ x ∨ rF x) h := by
  cases u with
  | root _ =>
    simp only [dropF, Option.some.injEq] at hr
    subst hr
    obtain ⟨K, rfl⟩ : ∃ j, K = j + 1 := ⟨K - 1, by omega⟩
    simp only [dropBranchP]
    rw [wp_newNodeP]
    exact ⟨_, new_rep (m + 1) K h none, fun x hx => .inl (by omega)⟩
  | @step _ labs a p F ps ns t A fn ff l ac u o hac =>
    simp only [dropF] at hr
    simp only [dropBranchP]
    rw [wp_bind]
    refine wp_conseq (copyP_spec o) ?_
    rintro _ h1 ⟨rfl, hh1, o1⟩
    have n1 : h1.next = h.next + 1 := by rw [hh1]; simp
    have m1 : ∀ x, x < h.next → h1.mem x = h.mem x := by
      intro x hx; rw [hh1, Heap.mem_push, if_neg (by omega)]
    rw [wp_bind]
    refine wp_mono (W := fun x => x = h.next ∨ h1.next ≤ x) ?_ ?_ (wp_frame (delBranch_spec o1 (by omega) l))
    · rintro x (q | q) <;> omega
    rintro _ h2 ⟨⟨F2, r2, f2⟩, n2, m2⟩
    refine copyBranchP_spec hf u h2 h.next _ r F2 (by omega) (fun x hx => ?_) (r2.mono (by omega)) (fun x hx => ?_) (Nat.le_refl _) hr
    · rw [m2 x (by omega) (by omega), m1 x hx]
    · rcases f2 x hx with q | ⟨q | q, _⟩
      · exact .inl (by omega)
      · exact .inl (by omega)
      · exact .inr ((o.foot x).2 (.inr q))

/-- The functional counterpart of `clearBranchP`. -/
def clearF (ni : Node V) : List Bytes → List (Node V) → Option (Node V)
  | label :: labels, p :: nodes =>
    if DL.IsEmpty ni.branches then copyBranch (.mk (DL.RawDelete p.branches label).1 p.val) labels nodes
    else (DL.RawInsert p.branches label (.mk ni.branches none)).bind fun br => copyBranch (.mk br p.val) labels nodes
  | _, _ => if DL.IsEmpty ni.branches then some .new else some (.mk ni.branches none)

theorem clearBranchP_spec (hf : 2 * tall m + 3 ≤ f) {k : Nat} {labs : List Bytes} {a : Addr} {n0 r : Node V} {F : Addr → Prop} {ps : List Ptr} {ns : List (Node V)}
    {t0 : Ptr} {A0 : ATree (RD Bytes Ptr)} {fn0 : Ptr → Node V} {ff0 : Bytes → Addr → Prop}
    (u : Up m h K ra rn rF (k + 1) labs a n0 F ps ns) (o0 : NOpen m h (NRep m h k) a n0 F t0 A0 fn0 ff0) (hr : clearF n0 labs ns = some r) :
    wp (fun x => h.next ≤ x) (clearBranchP f t0 labs ps) (fun q h' => ∃ F', PRep (m + 1) h' K q (some r) F' ∧ ∀ x, F' x → h.next ≤ x ∨ rF x) h := by
  have hemp : (erase A0).isNil = DL.IsEmpty n0.branches := by rw [DL.IsEmpty, o0.br, brOf_root o0.lab, isNil_mapT]
  generalize hk : k + 1 = k1 at u
  cases u with
  | root _ =>
    subst hk
    simp only [clearBranchP]
    rw [wp_bind]
    refine wp_conseq (IsEmptyP_spec o0.lab) ?_
    rintro _ h' ⟨rfl, rfl⟩
    rw [hemp]
    simp only [clearF] at hr
    cases e : DL.IsEmpty rn.branches with
    | true =>
      simp only [e, if_true, Option.some.injEq] at hr ⊢
      subst hr
      rw [wp_newNodeP]
      exact ⟨_, new_rep (m + 1) k h' none, fun x hx => .inl (by omega)⟩
    | false =>
      simp only [e, Bool.false_eq_true, if_false, Option.some.injEq] at hr ⊢
      subst hr
      rw [wp_newNodeP]
      refine ⟨_, NRep.mono (m := m) (k := k + 1) ⟨t0, A0, fn0, ff0, o0.copyV none⟩ (by omega), ?_⟩
      rintro x (q | q)
      · exact .inl (by omega)
      · exact .inr ((o0.foot x).2 (.inr q))
  | @step _ labs a' p Fp ps ns t A fn ff l ac u o hac =>
    subst hk
    simp only [clearF] at hr
    simp only [clearBranchP]
    rw [wp_bind]
    refine wp_conseq (copyP_spec o) ?_
    rintro _ h1 ⟨rfl, hh1, o1⟩
    have n1 : h1.next = h.next + 1 := by rw [hh1]; simp
    have m1 : ∀ x, x < h.next → h1.mem x = h.mem x := by
      intro x hx; rw [hh1, Heap.mem_push, if_neg (by omega)]
    have o01 := o0.frame (h' := h1) (by omega) fun x hx => m1 x (o0.flt hx)
    rw [wp_bind]
    unfold clearP
    rw [wp_bind]
    refine wp_conseq (IsEmptyP_spec o01.lab) ?_
    rintro _ h1' ⟨e1, rfl⟩
    subst h1'
    rw [hemp]
    have hFp : ∀ x, Fp x → x < h.next := fun x hx => o.flt hx
    cases e : DL.IsEmpty (fn (some a)).branches with
    | true =>
      simp only [e, if_true] at hr ⊢
      refine wp_mono (W := fun x => x = h.next ∨ h1.next ≤ x) ?_ ?_ (wp_frame (delBranch_spec o1 (by omega) l))
      · rintro x (q | q) <;> omega
      rintro _ h2 ⟨⟨F2, r2, f2⟩, n2, m2⟩
      refine copyBranchP_spec hf u h2 h.next _ r F2 (by omega) (fun x hx => ?_) (r2.mono (by omega)) (fun x hx => ?_) (Nat.le_refl _) hr
      · rw [m2 x (by omega) (by omega), m1 x hx]
      · rcases f2 x hx with q | ⟨q | q, _⟩
        · exact .inl (by omega)
        · exact .inl (by omega)
        · exact .inr ((o.foot x).2 (.inr q))
    | false =>
      simp only [e, Bool.false_eq_true, if_false, Option.bind_eq_some_iff] at hr ⊢
      obtain ⟨br, hr1, hr2⟩ := hr
      rw [wp_bind, wp_newNodeP]
      have cq := o01.copyV none
      generalize hh2 : h1.push ⟨DD.node (none : Option V), t0, none⟩ = h2 at cq
      have n2 : h2.next = h1.next + 1 := by rw [← hh2]; simp
      have m2 : ∀ x, x < h1.next → h2.mem x = h1.mem x := by
        intro x hx; rw [← hh2, Heap.mem_push, if_neg (by omega)]
      have o2 := o1.frame (h' := h2) (by omega) fun x hx => m2 x (o1.flt hx)
      have hcF : ¬ (h1.next = h.next ∨ LFoot t A h1.next ∨ ∃ l, ff l h1.next) := by
        rintro (q | q)
        · omega
        · have := hFp _ ((o.foot _).2 (.inr q)); omega
      have hq : ∀ x, (x = h1.next ∨ LFoot t0 A0 x ∨ ∃ l, ff0 l x) → x = h1.next ∨ ff l x := by
        rintro x (q | q)
        · exact .inl q
        · exact .inr ((o0.foot x).2 (.inr q))
      refine wp_mono (W := fun x => x = h.next ∨ h2.next ≤ x) ?_ ?_ (wp_frame (setBranch_spec o2 hf hcF l))
      · rintro x (q | q) <;> omega
      rintro _ h3 ⟨⟨F', G, hole, hG, hlt, hsub⟩, n3, m3⟩
      obtain ⟨br', g1, g2⟩ := hG (.mk (fn (some a)).branches none)
      rw [hr1] at g1
      cases g1
      have hql : ∀ x, (x = h1.next ∨ LFoot t0 A0 x ∨ ∃ l, ff0 l x) → x ≠ h.next ∧ x < h2.next := by
        intro x hx
        rcases hq x hx with q | q
        · omega
        · have := hFp x ((o.foot x).2 (.inr (.inr ⟨l, q⟩))); omega
      have cq' : NRep m h2 (k + 1) h1.next _ _ := ⟨t0, A0, fn0, ff0, cq⟩
      have cq3 := cq'.frame (h' := h3) n3 fun x hx => m3 x (hql x hx).2 (by have := hql x hx; omega)
      obtain ⟨Fr, r1, r2⟩ := hole (m + 1) h3 _ _ (by omega) (Nat.le_refl _) (fun _ _ => rfl) (cq3.mono (by omega)) (by
        intro x hx hx'
        rcases hsub x hx' with q | ⟨q, q2⟩
        · have := hql x hx; omega
        · rcases hq x hx with rfl | q'
          · exact hcF q
          · exact q2 q')
      rw [g2] at r1
      refine copyBranchP_spec hf u h3 h.next _ r Fr (by omega) (fun x hx => ?_) r1 (fun x hx => ?_) (Nat.le_refl _) hr2
      · rw [m3 x (by omega) (by omega), m2 x (by omega), m1 x hx]
      · rcases r2 x hx with q | q
        · rcases hsub x q with q | ⟨q | q, _⟩
          · exact .inl (by omega)
          · exact .inl (by omega)
          · exact .inr ((o.foot x).2 (.inr q))
        · rcases hq x q with q | q
          · exact .inl (by omega)
          · exact .inr ((o.foot x).2 (.inr (.inr ⟨l, q⟩)))

end

theorem PRep.mono {m m' k : Nat} {h : Heap (DD V)} {p : Ptr} {n : Option (Node V)} {F : Addr → Prop} (hN : PRep m h k p n F) (hm : m ≤ m') : PRep m' h k p n F := by
  cases p <;> cases n <;> first | exact hN | exact NRep.mono hN hm

theorem DeleteSubdomainsP_spec {m k f : Nat} {h : Heap (DD V)} {p : Ptr} {n : Option (Node V)} {F : Addr → Prop} {d : Name} {ls : List Bytes} (hf : 2 * tall m + 3 ≤ f)
    (hN : PRep m h k p n F) (hd : Holds d ls) (hk : ls.length < k) {r : Option (Node V)} {ok : Bool} (hi : DeleteSubdomains n d = some (r, ok)) :
    wp (fun x => h.next ≤ x) (DeleteSubdomainsP f p d) (fun q h' => q.2 = ok ∧ ∃ F', PRep (m + 1) h' k q.1 r F' ∧ ∀ x, F' x → h.next ≤ x ∨ F x) h := by
  unfold DeleteSubdomainsP
  cases p with
  | none =>
    cases n with
    | some n => exact hN.elim
    | none =>
      simp only [DeleteSubdomains, Option.some.injEq, Prod.mk.injEq] at hi
      obtain ⟨rfl, rfl⟩ := hi
      exact ⟨rfl, F, hN, fun x hx => .inr hx⟩
  | some a =>
    cases n with
    | none => exact hN.elim
    | some n =>
      simp only [reduceCtorEq, if_false]
      have hN' : NRep m h k a n F := hN
      unfold DeleteSubdomains at hi
      simp only at hi
      cases hb : getBranch n d with
      | none => simp [hb] at hi
      | some b =>
        rw [wp_bind]
        refine wp_conseq (getBranchP_spec (by omega) hN' hd hk hb) ?_
        rintro _ h' ⟨rfl, ⟨rfl, rfl⟩ | ⟨k', labs, a', n', F', ps, ns, u, hk', rfl, rfl⟩⟩
        · simp only [hb, Option.some.injEq, Prod.mk.injEq] at hi
          obtain ⟨rfl, rfl⟩ := hi
          exact ⟨rfl, F, NRep.mono hN' (by omega), fun x hx => .inr hx⟩
        · simp only [hb] at hi
          simp only
          rw [wp_bind]
          refine wp_conseq (noneBelowP_spec u.rep hN') ?_
          rintro _ h'' ⟨rfl, rfl⟩
          cases e : n'.val.isNone && DL.IsEmpty n.branches with
          | true =>
            simp only [e, if_true, Option.some.injEq, Prod.mk.injEq] at hi ⊢
            obtain ⟨rfl, rfl⟩ := hi
            exact ⟨rfl, F, NRep.mono hN' (by omega), fun x hx => .inr hx⟩
          | false =>
            simp only [e, Bool.false_eq_true, if_false] at hi ⊢
            rw [wp_bind]
            have key : ∃ r', r = some r' ∧ ok = true ∧ dropF labs ns = some r' := by
              clear u
              unfold dropF
              split at hi
              · simp only [Option.map_eq_some_iff, Prod.mk.injEq] at hi
                obtain ⟨r', h1, h2, h3⟩ := hi
                exact ⟨r', h2.symm, h3.symm, h1⟩
              · simp only [Option.some.injEq, Prod.mk.injEq] at hi
                refine ⟨.new, hi.1.symm, hi.2.symm, ?_⟩
                rename_i hh
                split
                · exact (hh _ _ _ _ rfl rfl).elim
                · rfl
            obtain ⟨r', rfl, rfl, key⟩ := key
            refine wp_conseq (dropBranchP_spec hf (by omega) u key) ?_
            rintro q h3 ⟨F3, r3, f3⟩
            exact ⟨rfl, F3, r3, f3⟩

theorem DeleteP_spec {m k f : Nat} {h : Heap (DD V)} {p : Ptr} {n : Option (Node V)} {F : Addr → Prop} {d : Name} {ls : List Bytes} (hf : 2 * tall m + 3 ≤ f)
    (hN : PRep m h k p n F) (hd : Holds d ls) (hk : ls.length < k) {r : Option (Node V)} {ok : Bool} (hi : DomTree.Delete n d = some (r, ok)) :
    wp (fun x => h.next ≤ x) (DeleteP f p d) (fun q h' => q.2 = ok ∧ ∃ F', PRep (m + 1) h' k q.1 r F' ∧ ∀ x, F' x → h.next ≤ x ∨ F x) h := by
  unfold DeleteP
  cases p with
  | none =>
    cases n with
    | some n => exact hN.elim
    | none =>
      simp only [DomTree.Delete, Option.some.injEq, Prod.mk.injEq] at hi
      obtain ⟨rfl, rfl⟩ := hi
      exact ⟨rfl, F, hN, fun x hx => .inr hx⟩
  | some a =>
    cases n with
    | none => exact hN.elim
    | some n =>
      simp only [reduceCtorEq, if_false]
      have hN' : NRep m h k a n F := hN
      unfold DomTree.Delete at hi
      simp only at hi
      cases hb : getBranch n d with
      | none => simp [hb] at hi
      | some b =>
        rw [wp_bind]
        refine wp_conseq (getBranchP_spec (by omega) hN' hd hk hb) ?_
        rintro _ h' ⟨rfl, ⟨rfl, rfl⟩ | ⟨k', labs, a', n', F', ps, ns, u, hk', rfl, rfl⟩⟩
        · simp only [hb, Option.some.injEq, Prod.mk.injEq] at hi
          obtain ⟨rfl, rfl⟩ := hi
          exact ⟨rfl, F, NRep.mono hN' (by omega), fun x hx => .inr hx⟩
        · simp only [hb] at hi
          simp only
          obtain ⟨k', rfl⟩ : ∃ j, k' = j + 1 := ⟨k' - 1, by omega⟩
          obtain ⟨t, A, fn, ff, o⟩ := u.rep
          rw [wp_bind, wp_nodeP o.cell]
          cases e : n'.val.isNone with
          | true =>
            simp only [e, if_true, Option.some.injEq, Prod.mk.injEq] at hi ⊢
            obtain ⟨rfl, rfl⟩ := hi
            exact ⟨rfl, F, NRep.mono hN' (by omega), fun x hx => .inr hx⟩
          | false =>
            simp only [e, Bool.false_eq_true, if_false] at hi ⊢
            rw [wp_bind]
            have key : ∃ r', r = some r' ∧ ok = true ∧ clearF n' labs ns = some r' := by
              clear u
              unfold clearF
              split at hi
              · split at hi
                · rename_i e2
                  simp only [Option.map_eq_some_iff, Prod.mk.injEq] at hi
                  obtain ⟨r', h1, h2, h3⟩ := hi
                  exact ⟨r', h2.symm, h3.symm, by simp only [e2, if_true]; exact h1⟩
                · rename_i e2
                  simp only [Option.bind_eq_some_iff, Option.map_eq_some_iff, Prod.mk.injEq] at hi
                  obtain ⟨br, h0, r', h1, h2, h3⟩ := hi
                  exact ⟨r', h2.symm, h3.symm, by simp only [e2, Bool.false_eq_true, if_false, h0, Option.bind_some]; exact h1⟩
              · split at hi
                · rename_i e2
                  simp only [Option.some.injEq, Prod.mk.injEq] at hi
                  exact ⟨.new, hi.1.symm, hi.2.symm, by simp [e2]⟩
                · rename_i e2
                  simp only [Option.some.injEq, Prod.mk.injEq] at hi
                  exact ⟨_, hi.1.symm, hi.2.symm, by simp [e2]⟩
            obtain ⟨r', rfl, rfl, key⟩ := key
            refine wp_conseq (clearBranchP_spec hf u o key) ?_
            rintro q h3 ⟨F3, r3, f3⟩
            exact ⟨rfl, F3, r3, f3⟩

end Verif.DomHeap
