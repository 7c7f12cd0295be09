import Verif.DomHeap.Insert

/-! # InplaceInsert of domaintree on memory -/

namespace Verif.DomHeap
open Verif Verif.Heap Verif.Heap.Prog Verif.Heap.ATree Verif.RB Verif.RBHeap Verif.DLHeap Verif.DL Verif.Domain Verif.DomainText Verif.DomTree

variable {V : Type}

/-- Linking the node at `c` below label `l` in place. -/
theorem inplaceBranch_spec {m k f : Nat} {h : Heap (DD V)} {a : Addr} {n : Node V} {F : Addr → Prop} {b : Addr} {A : ATree (RD Bytes Ptr)}
    {fn : Ptr → Node V} {ff : Bytes → Addr → Prop} (o : NOpen m h (NRep m h k) a n F (some b) A fn ff) (hf : 2 * tall m + 3 ≤ f) {c : Addr} (hc : ¬ F c) (l : Bytes) :
    wp (fun x => F x ∨ h.next ≤ x) (RawInplaceInsertP dm f (some b) l (some c)) (fun _ h' => (∃ F' G, Hole (m + 1) h' k a c F' G ∧
      (∀ n', ∃ br, DL.RawInsert n.branches l n' = some br ∧ G n' = .mk br n.val) ∧ (∀ x, F' x → x < h'.next) ∧
      ∀ x, F' x → h.next ≤ x ∨ F x ∧ ¬ ff l x) ∧ h.next ≤ h'.next ∧ ∀ x, x < h.next → ¬ F x → h'.mem x = h.mem x) h := by
  refine wp_mono (W := fun x => LFoot (some b) A x ∨ h.next ≤ x) ?_ ?_ (wp_frame (RawInplaceInsertP_spec o.lab hf l (some c)))
  · rintro x (q | q)
    · exact .inl ((o.foot x).2 (.inr (.inl q)))
    · exact .inr q
  rintro _ h1 ⟨⟨A', hL, hi, hcn⟩, hn, hfr⟩
  have hmem : ∀ x, F x → ¬ LFoot (some b) A x → h1.mem x = h.mem x := fun x hx hl => hfr x (o.flt hx) (by have := o.flt hx; rintro (q | q); exact hl q; omega)
  have ha1 : h1.mem a = some ⟨.node n.val, some b, none⟩ := by rw [hmem a ((o.foot a).2 (.inl rfl)) o.lab_ne]; exact o.cell
  obtain ⟨T, i1, i2, i3, i4, i5⟩ := insert_facts o.lab.bal o.lab.srt l (some c)
  rw [hi] at i1; cases i1
  have hget : ∀ q, at_ A' q = if l = q then some (some c) else at_ A q := i5
  have hfoot : ∀ x, LFoot (some b) A' x → h.next ≤ x ∨ LFoot (some b) A x := by
    rintro x (q | q)
    · cases q; exact .inr (.inl rfl)
    · rcases hcn x q with q | q
      · exact .inl q
      · exact .inr (.inr q)
  have hfl : ∀ x, LFoot (some b) A' x → x < h1.next := fun x hx => hL.lt hx
  refine ⟨⟨_, _, hole_of (l := l) (val := n.val) (t := some b) (A := A') (fn := fn) (ff := ff) ha1 (by have := o.lt; omega) hL o.fn0 ?_ ?_ ?_ ?_ ?_, ?_, ?_, ?_⟩, hn, ?_⟩
  · rw [hget, if_pos rfl]
  · intro l' p hne hp
    rw [hget, if_neg (Ne.symm hne)] at hp
    obtain ⟨c', rfl, r⟩ := o.sub l' p hp
    refine ⟨c', rfl, ?_, ?_⟩
    · rintro rfl
      exact hc ((o.foot c').2 (.inr (.inr ⟨l', r.self⟩)))
    · exact (r.mono (by omega)).frame hn fun x hx => hmem x ((o.foot x).2 (.inr (.inr ⟨l', hx⟩))) (o.own l' x hx).2
  · intro l' x hne hp
    rw [hget, if_neg (Ne.symm hne)] at hp
    exact o.emp l' x hp
  · intro l' x hne hx
    refine ⟨(o.own l' x hx).1, fun q => ?_⟩
    rcases hfoot x q with q | q
    · have := o.flt ((o.foot x).2 (.inr (.inr ⟨l', hx⟩))); omega
    · exact (o.own l' x hx).2 q
  · intro l1 l2 x _ _ hne; exact o.dis l1 l2 x hne
  · intro n'
    refine ⟨_, ?_, rfl⟩
    rw [rawInsert_root, o.br, brOf_root o.lab, ← mapT_updF o hc n']
    have := insert_map (f := updF fn c n') ((updF_none fn c n').trans o.fn0) cmpLabel (erase A) l (some c)
    rw [updF_self] at this
    rw [this, hi]
    rfl
  · rintro x (rfl | q | ⟨l', hne, q⟩)
    · have := o.lt; omega
    · exact hfl x q
    · have := o.flt ((o.foot x).2 (.inr (.inr ⟨l', q⟩))); omega
  · rintro x (rfl | q | ⟨l', hne, q⟩)
    · exact .inr ⟨(o.foot x).2 (.inl rfl), fun q => (o.own l x q).1 rfl⟩
    · rcases hfoot x q with q | q
      · exact .inl q
      · exact .inr ⟨(o.foot x).2 (.inr (.inl q)), fun q' => (o.own l x q').2 q⟩
    · exact .inr ⟨(o.foot x).2 (.inr (.inr ⟨l', q⟩)), o.dis l' l x hne q⟩
  · intro x hx hF
    refine hfr x hx ?_
    rintro (q | q)
    · exact hF ((o.foot x).2 (.inr (.inl q)))
    · omega

/-- `&Node{branches: dltree.NewTree()}`. -/
theorem newEmpty_rep (m k : Nat) (h : Heap (DD V)) (val : Option V) :
    NRep m ((h.push ⟨.tree, none, none⟩).push ⟨.node val, some h.next, none⟩) (k + 1) (h.next + 1) (.mk DL.NewTree val)
      (fun x => x = h.next ∨ x = h.next + 1) := by
  refine ⟨some h.next, .nil, fun _ => .new, fun _ _ => False, ?_⟩
  exact {
    cell := by rw [Heap.mem_push]; simp [Node.val]
    lt := by simp
    lab := {
      cell := ⟨by simp only [Heap.mem_push, Heap.next_push]; simp; rfl, by simp; omega⟩
      rep := trivial
      once := by simp
      bal := balanced_nil
      srt := List.Pairwise.nil
      size := by simp [BTree.size] }
    fn0 := rfl
    br := rfl
    sub := by intro l p hp; simp [at_, RB.get] at hp
    emp := by simp
    own := by simp
    dis := by simp
    foot := by
      intro x
      simp only [LFoot, exists_false, or_false, Option.some.injEq, cnt_nil]
      omega }

/-- The walk of `InplaceInsert`. -/
theorem inplaceWalk {m f : Nat} (hf : 2 * tall m + 3 ≤ f) (v : V) (ls : List Bytes) : ∀ (k : Nat) (h : Heap (DD V)) (a : Addr) (n n' : Node V) (F : Addr → Prop),
    NRep m h k a n F → ls.length < k → inplaceL n ls v = some n' →
    wp (fun x => F x ∨ h.next ≤ x) (foldP (inplaceStepP f) (some a) ls >>= fun x => setValP x.1 v) (fun _ h' => ∃ F',
      NRep (m + 1) h' k a n' F' ∧ ∀ x, F' x → F x ∨ h.next ≤ x) h := by
  induction ls with
  | nil =>
    intro k h a n n' F hN hk hi
    cases k with
    | zero => omega
    | succ k =>
      obtain ⟨t, A, fn, ff, o⟩ := hN
      rw [wp_bind]
      unfold foldP
      rw [wp_pure, wp_setValP o.cell]
      simp only [inplaceL, Option.some.injEq] at hi
      subst hi
      exact ⟨.inl ((o.foot a).2 (.inl rfl)), F, NRep.mono (k := k + 1) ⟨t, A, fn, ff, o.setVal (some v)⟩ (by omega), fun x hx => .inl hx⟩
  | cons l ls ih =>
    intro k h a n n' F hN hk hi
    simp only [List.length_cons] at hk
    obtain ⟨k, rfl⟩ : ∃ j, k = j + 2 := ⟨k - 2, by omega⟩
    obtain ⟨t, A, fn, ff, o⟩ := hN
    rw [wp_bind]
    simp only [foldP, inplaceStepP]
    rw [wp_bind, wp_bind, wp_nodeP o.cell, wp_bind]
    refine wp_conseq (RawGetP_spec o.lab (by omega) l) ?_
    rintro _ h0 ⟨rfl, rfl⟩
    have hget := o.rawGet l
    cases e : at_ A l with
    | some p =>
      obtain ⟨c, rfl, r⟩ := o.sub l p e
      obtain ⟨F', b, G, hole, hb, hG, hsub⟩ := found_hole o e
      simp only [inplaceL, hb] at hi
      rw [hb, e] at hget
      simp only [hget, Option.map_some] at hi
      simp only [Option.map_eq_some_iff] at hi
      obtain ⟨item, hi1, rfl⟩ := hi
      have e' : RB.get cmpLabel (erase A) l = some (some c) := e
      simp only [e', assertP]
      rw [wp_bind]
      simp only [wp_pure]
      rw [← wp_bind]
      refine wp_mono (W := fun x => ff l x ∨ h0.next ≤ x) ?_ ?_ (wp_frame (ih (k + 1) h0 c _ item (ff l) r (by omega) hi1))
      · rintro x (q | q)
        · exact .inl ((o.foot x).2 (.inr (.inr ⟨l, q⟩)))
        · exact .inr q
      rintro _ h3 ⟨⟨Fc', rc3, fc3⟩, n3, m3⟩
      obtain ⟨Fr, r1, r2⟩ := hole (m + 1) h3 item Fc' (by omega) n3 (fun x hx => by
          have q := hsub x hx
          have := o.flt q.1
          refine m3 x this ?_
          rintro (q' | q')
          · exact q.2 q'
          · omega) rc3 (by
        intro x hx hx'
        have q := hsub x hx'
        have := o.flt q.1
        rcases fc3 x hx with q' | q'
        · exact q.2 q'
        · omega)
      rw [hG] at r1
      refine ⟨Fr, r1, fun x hx => ?_⟩
      rcases r2 x hx with q | q
      · exact .inl (hsub x q).1
      · rcases fc3 x q with q | q
        · exact .inl ((o.foot x).2 (.inr (.inr ⟨l, q⟩)))
        · exact .inr q
    | none =>
      cases t with
      | none => simp [inplaceL, o.br, brOf] at hi
      | some b =>
        have hb : n.branches = some ⟨mapT fn (erase A)⟩ := o.br
        rw [hb, e] at hget
        simp only [inplaceL, hb, hget, Option.map_none, Option.bind_eq_some_iff, Option.map_eq_some_iff] at hi
        obtain ⟨next, hi1, br, hi2, rfl⟩ := hi
        have e' : RB.get cmpLabel (erase A) l = none := e
        simp only [e']
        rw [wp_bind, wp_newTreeP, wp_bind, wp_newNodeP]
        have rc := newEmpty_rep m k h0 (none : Option V)
        generalize hh1 : (h0.push ⟨DD.tree, none, none⟩).push ⟨DD.node (none : Option V), some h0.next, none⟩ = h1 at rc
        have hh1' : (h0.push ⟨(dm (V := V)).kT.inj (), none, none⟩).push ⟨DD.node (none : Option V), some h0.next, none⟩ = h1 := hh1
        rw [hh1']
        have n1 : h1.next = h0.next + 2 := by rw [← hh1]; simp
        have m1 : ∀ x, x < h0.next → h1.mem x = h0.mem x := by
          intro x hx
          rw [← hh1, Heap.mem_push, if_neg (by simp; omega), Heap.mem_push, if_neg (by omega)]
        simp only [Heap.next_push]
        have o1 := o.frame (h' := h1) (by omega) fun x hx => m1 x (o.flt hx)
        have hcF : ¬ F (h0.next + 1) := fun q => by have := o.flt q; omega
        rw [wp_bind, wp_nodeP o1.cell, wp_bind]
        refine wp_mono (W := fun x => F x ∨ h1.next ≤ x) ?_ ?_ (inplaceBranch_spec o1 hf hcF l)
        · rintro x (q | q)
          · exact .inl q
          · exact .inr (by omega)
        rintro _ h2 ⟨⟨F', G, hole, hG, hlt, hsub⟩, n2, m2⟩
        simp only [wp_pure]
        have hF0 : ∀ x, F x → x < h0.next := fun x hx => o.flt hx
        have rc2 := rc.frame (h' := h2) n2 fun x hx => m2 x (rc.lt hx) (fun q => by have := hF0 x q; omega)
        rw [← wp_bind]
        refine wp_mono (W := fun x => (x = h0.next ∨ x = h0.next + 1) ∨ h2.next ≤ x) ?_ ?_ (wp_frame (ih (k + 1) h2 (h0.next + 1) _ next _ rc2 (by omega) hi1))
        · rintro x ((q | q) | q) <;> exact .inr (by omega)
        rintro _ h3 ⟨⟨Fc', rc3, fc3⟩, n3, m3⟩
        have hF' : ∀ x, F' x → x ≠ h0.next ∧ x ≠ h0.next + 1 := by
          intro x hx
          rcases hsub _ hx with q | q
          · omega
          · have := hF0 x q.1; omega
        obtain ⟨br', g1, g2⟩ := hG next
        rw [hb, hi2] at g1
        cases g1
        obtain ⟨Fr, r1, r2⟩ := hole (m + 1) h3 next Fc' (by omega) n3 (fun x hx => m3 x (hlt x hx) (by have := hlt x hx; have := hF' x hx; omega)) rc3 (by
          intro x hx hx'
          have := hF' x hx'
          have := hlt x hx'
          rcases fc3 x hx with (q | q) | q <;> omega)
        rw [g2] at r1
        refine ⟨Fr, r1, fun x hx => ?_⟩
        rcases r2 x hx with q | q
        · rcases hsub x q with q | q
          · exact .inr (by omega)
          · exact .inl q.1
        · rcases fc3 x q with (q | q) | q <;> exact .inr (by omega)

theorem InplaceInsertP_spec {m k f : Nat} {h : Heap (DD V)} {p : Ptr} {n r : Option (Node V)} {F : Addr → Prop} {d : Name} {ls : List Bytes} (hf : 2 * tall m + 3 ≤ f)
    (hN : PRep m h k p n F) (hd : Holds d ls) (hk : ls.length < k) (v : V) (hi : DomTree.InplaceInsert n d v = some r) :
    wp (fun x => F x ∨ h.next ≤ x) (InplaceInsertP f p d v) (fun _ h' => ∃ F', PRep (m + 1) h' k p r F' ∧ ∀ x, F' x → h.next ≤ x ∨ F x) h := by
  cases n with
  | none => cases hi
  | some n =>
    cases p with
    | none => exact hN.elim
    | some a =>
      obtain ⟨k, rfl⟩ : ∃ j, k = j + 1 := ⟨k - 1, by omega⟩
      obtain ⟨t, A, fn, ff, o⟩ := hN
      unfold DomTree.InplaceInsert at hi
      simp only [hd.labelsOf, Option.bind_some, Option.map_eq_some_iff] at hi
      obtain ⟨n', hi, rfl⟩ := hi
      unfold InplaceInsertP
      simp only [getLabelsP hd]
      rw [wp_bind]
      have fin : ∀ h1 n1 F1, h.next ≤ h1.next → NRep m h1 (k + 1) a n1 F1 → (∀ x, F1 x → F x ∨ h.next ≤ x) → inplaceL n1 ls v = some n' →
          wp (fun x => F x ∨ h.next ≤ x) (foldP (inplaceStepP f) (some a) ls >>= fun x => setValP x.1 v) (fun _ h' => ∃ F',
            PRep (m + 1) h' (k + 1) (some a) (some n') F' ∧ ∀ x, F' x → h.next ≤ x ∨ F x) h1 := by
        intro h1 n1 F1 hn hN1 hF1 hi1
        refine wp_mono ?_ ?_ (inplaceWalk hf v ls (k + 1) h1 a n1 n' F1 hN1 hk hi1)
        · rintro x (q | q)
          · exact hF1 x q
          · exact .inr (by omega)
        rintro _ h' ⟨F', r1, r2⟩
        refine ⟨F', r1, fun x hx => ?_⟩
        rcases r2 x hx with q | q
        · exact (hF1 x q).symm
        · exact .inl (by omega)
      unfold ensureBranchesP
      rw [wp_bind, wp_nodeP o.cell]
      cases t with
      | some b =>
        simp only [reduceCtorEq, if_false]
        rw [wp_pure]
        refine fin h n F (Nat.le_refl _) ⟨some b, A, fn, ff, o⟩ (fun x hx => .inl hx) ?_
        have : n.branches = some ⟨mapT fn (erase A)⟩ := o.br
        rw [this] at hi
        exact hi
      | none =>
        simp only [if_true]
        rw [wp_bind, wp_newTreeP]
        have hA : A = .nil := o.lab.cell
        subst hA
        have hlt := o.lt
        have ha1 : (h.push ⟨(dm (V := V)).kT.inj (), none, none⟩).mem a = some ⟨.node n.val, none, none⟩ := by
          rw [Heap.mem_push, if_neg (by omega)]; exact o.cell
        rw [wp_setBranchesP ha1]
        refine ⟨.inl ((o.foot a).2 (.inl rfl)), ?_⟩
        refine fin _ (.mk DL.NewTree n.val) (fun x => x = a ∨ x = h.next) (by simp) ?_ ?_ ?_
        · refine ⟨some h.next, .nil, fun _ => .new, fun _ _ => False, ?_⟩
          exact {
            cell := by simp [Node.val]
            lt := by simp; omega
            lab := {
              cell := ⟨by rw [Heap.mem_put, if_neg (by omega)]; simp, by simp⟩
              rep := trivial
              once := by simp
              bal := balanced_nil
              srt := List.Pairwise.nil
              size := by simp [BTree.size] }
            fn0 := rfl
            br := rfl
            sub := by intro l p hp; simp [at_, RB.get] at hp
            emp := by simp
            own := by simp
            dis := by simp
            foot := by
              intro x
              simp only [LFoot, exists_false, or_false, Option.some.injEq, cnt_nil]
              omega }
        · rintro x (rfl | rfl)
          · exact .inl ((o.foot x).2 (.inl rfl))
          · exact .inr (Nat.le_refl _)
        · have : n.branches = none := o.br
          rw [this] at hi
          exact hi

end Verif.DomHeap
