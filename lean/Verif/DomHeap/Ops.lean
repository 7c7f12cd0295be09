import Verif.DomHeap.Rep

/-! # One step of the domaintree operations -/

namespace Verif.DomHeap
open Verif Verif.Heap Verif.Heap.Prog Verif.Heap.ATree Verif.RB Verif.RBHeap Verif.DLHeap Verif.DL Verif.Domain Verif.DomTree

variable {V : Type}

/-- The label tree after a value was changed through its pointer. -/
theorem updAt_map {fn : Ptr → Node V} {c : Addr} {n' : Node V} {l : Bytes} (T : RTree Bytes Ptr) (hs : Sorted cmpLabel (RB.enumerate T))
    (hc : ∀ k p, (k, p) ∈ RB.enumerate T → (p = some c ↔ k = l)) : DL.updAt l n' (mapT fn T) = mapT (updF fn c n') T := by
  induction T with
  | nil => rfl
  | node d x y ihx ihy =>
    simp only [RB.enumerate, List.mem_append, List.mem_cons] at hc
    unfold Sorted at hs
    simp only [RB.enumerate, List.pairwise_append, List.pairwise_cons, List.mem_cons] at hs
    obtain ⟨s1, ⟨s4, s2⟩, s3⟩ := hs
    have hx : ∀ k p, (k, p) ∈ RB.enumerate x → (p = some c ↔ k = l) := fun k p q => hc k p (.inl q)
    have hy : ∀ k p, (k, p) ∈ RB.enumerate y → (p = some c ↔ k = l) := fun k p q => hc k p (.inr (.inr q))
    have hd := hc d.key d.value (.inr (.inl rfl))
    have same : ∀ T : RTree Bytes Ptr, (∀ k p, (k, p) ∈ RB.enumerate T → (p = some c ↔ k = l)) → (∀ k p, (k, p) ∈ RB.enumerate T → k ≠ l) →
        mapT fn T = mapT (updF fn c n') T := by
      intro T h1 h2
      refine mapT_congr ?_
      rintro ⟨k, p⟩ hp
      have : p ≠ some c := fun q => h2 k p hp ((h1 k p hp).1 q)
      simp [updF, this]
    have lx : ∀ k p, (k, p) ∈ RB.enumerate x → cmpLabel k d.key < 0 := fun k p q => s3 _ q _ (.inl rfl)
    have ly : ∀ k p, (k, p) ∈ RB.enumerate y → cmpLabel d.key k < 0 := fun k p q => s4 _ q
    simp only [mapT_node, DL.updAt]
    by_cases e0 : cmpLabel d.key l = 0
    · have ek := cmpLabel_eq_zero.1 e0
      rw [if_pos (show cmpLabel (d.mapV fn).key l = 0 from e0), same x hx, same y hy]
      · simp [RD.mapV, updF, hd.2 ek]
      · intro k p q e
        have := ly k p q
        rw [e, ← ek] at this
        have := cmpLabel_lawful.refl d.key
        omega
      · intro k p q e
        have := lx k p q
        rw [e, ← ek] at this
        have := cmpLabel_lawful.refl d.key
        omega
    · have ek : d.key ≠ l := fun q => e0 (cmpLabel_eq_zero.2 q)
      have hv : d.value ≠ some c := fun q => ek (hd.1 q)
      have hdm : d.mapV fn = d.mapV (updF fn c n') := by simp [RD.mapV, updF, hv]
      rw [if_neg (show ¬ cmpLabel (d.mapV fn).key l = 0 from e0), ← hdm]
      by_cases e1 : cmpLabel d.key l < 0
      · rw [if_pos (show cmpLabel (d.mapV fn).key l < 0 from e1), ihy s2 hy, same x hx]
        intro k p q e
        have := lx k p q
        rw [e] at this
        have := (cmpLabel_lawful.swap l d.key).1 this
        omega
      · rw [if_neg (show ¬ cmpLabel (d.mapV fn).key l < 0 from e1), ihx s1 hx, same y hy]
        intro k p q e
        have := ly k p q
        rw [e] at this
        omega

section
variable {m k f : Nat} {h : Heap (DD V)} {a : Addr} {n : Node V} {F : Addr → Prop} {t : Ptr} {A : ATree (RD Bytes Ptr)}
  {fn : Ptr → Node V} {ff : Bytes → Addr → Prop}

/-- A node whose pointer does not occur is not shown. -/
theorem mapT_updF (o : NOpen m h (NRep m h k) a n F t A fn ff) {c : Addr} (hc : ¬ F c) (n' : Node V) :
    mapT (updF fn c n') (erase A) = mapT fn (erase A) := by
  refine mapT_congr ?_
  rintro ⟨l, p⟩ hp
  have := (get_lookup o.lab.srt).2 hp
  obtain ⟨c', rfl, r⟩ := o.sub l p this
  have : c' ≠ c := by
    rintro rfl
    exact hc ((o.foot c').2 (.inr (.inr ⟨l, r.self⟩)))
  simp [updF, this]

theorem rawInsert_root {W : Type} [Inhabited W] (b : Option (DL.Tree W)) (l : Bytes) (w : W) :
    DL.RawInsert b l w = (RB.insert cmpLabel (DL.rootOf b) l w).map fun n => some ⟨n⟩ := rfl

/-- Linking the node at `c` below label `l`. -/
theorem setBranch_spec (o : NOpen m h (NRep m h k) a n F t A fn ff) (hf : 2 * tall m + 3 ≤ f) {c : Addr} (hc : ¬ F c) (l : Bytes) :
    wp (fun x => x = a ∨ h.next ≤ x) (setBranchP f (some a) l (some c)) (fun _ h' => ∃ F' G, Hole (m + 1) h' k a c F' G ∧
      (∀ n', ∃ br, DL.RawInsert n.branches l n' = some br ∧ G n' = .mk br n.val) ∧ (∀ x, F' x → x < h'.next) ∧
      ∀ x, F' x → h.next ≤ x ∨ F x ∧ ¬ ff l x) h := by
  unfold setBranchP
  rw [wp_bind, wp_nodeP o.cell, wp_bind]
  refine wp_mono (W := fun x => h.next ≤ x) (fun x hx => .inr hx) ?_ (wp_frame (RawInsertP_spec o.lab hf l (some c)))
  rintro p h1 ⟨⟨b, A', rfl, hb, hL, hi, hcn⟩, hn, hfr⟩
  have hmem : ∀ x, F x → h1.mem x = h.mem x := fun x hx => hfr x (o.flt hx) (by have := o.flt hx; omega)
  have ha1 : h1.mem a = some ⟨.node n.val, t, none⟩ := by rw [hmem a ((o.foot a).2 (.inl rfl))]; exact o.cell
  rw [wp_setBranchesP ha1]
  refine ⟨.inl rfl, ?_⟩
  obtain ⟨T, i1, i2, i3, i4, i5⟩ := insert_facts o.lab.bal o.lab.srt l (some c)
  rw [hi] at i1; cases i1
  have hget : ∀ q, at_ A' q = if l = q then some (some c) else at_ A q := i5
  have hfoot : ∀ x, LFoot (some b) A' x → h.next ≤ x ∨ LFoot t A x := by
    rintro x (q | q)
    · cases q; exact .inl hb
    · rcases hcn x q with q | q
      · exact .inl q
      · exact .inr (.inr q)
  have hfl : ∀ x, LFoot (some b) A' x → x < h1.next := fun x hx => hL.lt hx
  have hane : ∀ x, LFoot (some b) A' x → x ≠ a := by
    rintro x hx rfl
    rcases hfoot x hx with q | q
    · have := o.lt; omega
    · exact o.lab_ne q
  have hput : ∀ x, x ≠ a → (h1.put a ⟨DD.node n.val, some b, none⟩).mem x = h1.mem x := by
    intro x hx; rw [Heap.mem_put, if_neg hx]
  refine ⟨_, _, hole_of (l := l) (val := n.val) (t := some b) (A := A') (fn := fn) (ff := ff) (by simp) (by have := o.lt; simp; omega) ?_ o.fn0 ?_ ?_ ?_ ?_ ?_, ?_, ?_, ?_⟩
  · exact hL.frame (by simp) fun x hx => hput x (hane x hx)
  · rw [hget, if_pos rfl]
  · intro l' p hne hp
    rw [hget, if_neg (Ne.symm hne)] at hp
    obtain ⟨c', rfl, r⟩ := o.sub l' p hp
    refine ⟨c', rfl, ?_, ?_⟩
    · rintro rfl
      exact hc ((o.foot c').2 (.inr (.inr ⟨l', r.self⟩)))
    · refine (r.mono (by omega)).frame (by simp; omega) fun x hx => ?_
      rw [hput x (o.own l' x hx).1, hmem x ((o.foot x).2 (.inr (.inr ⟨l', hx⟩)))]
  · intro l' x hne hp
    rw [hget, if_neg (Ne.symm hne)] at hp
    exact o.emp l' x hp
  · intro l' x hne hx
    refine ⟨(o.own l' x hx).1, fun q => ?_⟩
    rcases hfoot x q with q | q
    · have := o.flt ((o.foot x).2 (.inr (.inr ⟨l', hx⟩))); omega
    · exact (o.own l' x hx).2 q
  · intro l1 l2 x _ _ hne; exact o.dis l1 l2 x hne
  · intro n'
    refine ⟨_, ?_, rfl⟩
    rw [rawInsert_root, o.br, brOf_root o.lab, ← mapT_updF o hc n']
    have := insert_map (f := updF fn c n') ((updF_none fn c n').trans o.fn0) cmpLabel (erase A) l (some c)
    rw [updF_self] at this
    rw [this, hi]
    rfl
  · rintro x (rfl | q | ⟨l', hne, q⟩)
    · have := o.lt; simp; omega
    · have := hfl x q; simp; omega
    · have := o.flt ((o.foot x).2 (.inr (.inr ⟨l', q⟩))); simp; omega
  · rintro x (rfl | q | ⟨l', hne, q⟩)
    · exact .inr ⟨(o.foot x).2 (.inl rfl), fun q => (o.own l x q).1 rfl⟩
    · rcases hfoot x q with q | q
      · exact .inl q
      · exact .inr ⟨(o.foot x).2 (.inr (.inl q)), fun q' => (o.own l x q').2 q⟩
    · exact .inr ⟨(o.foot x).2 (.inr (.inr ⟨l', q⟩)), o.dis l' l x hne q⟩

/-- Removing what is below label `l`. -/
theorem delBranch_spec (o : NOpen m h (NRep m h k) a n F t A fn ff) (hf : tall m + 1 ≤ f) (l : Bytes) :
    wp (fun x => x = a ∨ h.next ≤ x) (delBranchP f (some a) l) (fun _ h' => ∃ F',
      NRep m h' (k + 1) a (.mk (DL.RawDelete n.branches l).1 n.val) F' ∧ ∀ x, F' x → h.next ≤ x ∨ F x ∧ ¬ ff l x) h := by
  unfold delBranchP
  rw [wp_bind, wp_nodeP o.cell, wp_bind]
  refine wp_mono (W := fun x => h.next ≤ x) (fun x hx => .inr hx) ?_ (wp_frame (RawDeleteP_spec o.lab hf l))
  rintro ⟨p, ok⟩ h1 ⟨⟨A', hL, hnil, hi, hb, hcn⟩, hn, hfr⟩
  simp only at hL hnil hi hb
  have hmem : ∀ x, F x → h1.mem x = h.mem x := fun x hx => hfr x (o.flt hx) (by have := o.flt hx; omega)
  have ha1 : h1.mem a = some ⟨.node n.val, t, none⟩ := by rw [hmem a ((o.foot a).2 (.inl rfl))]; exact o.cell
  rw [wp_setBranchesP ha1]
  refine ⟨.inl rfl, ?_⟩
  have hi' : erase A' = (RB.del cmpLabel (erase A) l).1 := by rw [← hi]
  obtain ⟨i2, i3, i4, i5⟩ := del_facts o.lab.bal o.lab.srt l
  have hget : ∀ q, at_ A' q = if l = q then none else at_ A q := by intro q; rw [at_, hi']; exact i5 q
  have hfoot : ∀ x, LFoot p A' x → h.next ≤ x ∨ LFoot t A x := by
    rintro x (q | q)
    · exact .inl (hb x q)
    · rcases hcn x q with q | q
      · exact .inl q
      · exact .inr (.inr q)
  have hane : ∀ x, LFoot p A' x → x ≠ a := by
    rintro x hx rfl
    rcases hfoot x hx with q | q
    · have := o.lt; omega
    · exact o.lab_ne q
  have hput : ∀ x, x ≠ a → (h1.put a ⟨DD.node n.val, p, none⟩).mem x = h1.mem x := by
    intro x hx; rw [Heap.mem_put, if_neg hx]
  refine ⟨fun x => x = a ∨ LFoot p A' x ∨ ∃ l', (l' ≠ l ∧ ff l' x), ⟨p, A', fn, fun l' x => l' ≠ l ∧ ff l' x, ?_⟩, ?_⟩
  · exact {
      cell := by simp [Node.val]
      lt := by have := o.lt; simp; omega
      lab := hL.frame (by simp) fun x hx => hput x (hane x hx)
      fn0 := o.fn0
      br := by
        rw [o.br]
        cases t with
        | none => rw [hnil.1 rfl]; rfl
        | some b =>
          cases p with
          | none => exact (by cases (hnil.2 rfl))
          | some b' =>
            simp only [brOf, DL.RawDelete, Node.branches, del_map, ← hi']
      sub := by
        intro l' q hq
        by_cases e : l = l'
        · rw [hget, if_pos e] at hq; cases hq
        · rw [hget, if_neg e] at hq
          obtain ⟨c', rfl, r⟩ := o.sub l' q hq
          refine ⟨c', rfl, ?_⟩
          have : (fun x => l' ≠ l ∧ ff l' x) = ff l' := by funext x; simp [Ne.symm e]
          rw [this]
          refine r.frame (by simp; omega) fun x hx => ?_
          rw [hput x (o.own l' x hx).1, hmem x ((o.foot x).2 (.inr (.inr ⟨l', hx⟩)))]
      emp := by
        rintro l' x hq ⟨hne, hx⟩
        rw [hget, if_neg (Ne.symm hne)] at hq
        exact o.emp l' x hq hx
      own := by
        rintro l' x ⟨hne, hx⟩
        refine ⟨(o.own l' x hx).1, fun q => ?_⟩
        rcases hfoot x q with q | q
        · have := o.flt ((o.foot x).2 (.inr (.inr ⟨l', hx⟩))); omega
        · exact (o.own l' x hx).2 q
      dis := by
        rintro l1 l2 x hne ⟨_, h1⟩ ⟨_, h2⟩
        exact o.dis l1 l2 x hne h1 h2
      foot := fun x => Iff.rfl }
  · rintro x (rfl | q | ⟨l', hne, q⟩)
    · exact .inr ⟨(o.foot x).2 (.inl rfl), fun q => (o.own l x q).1 rfl⟩
    · rcases hfoot x q with q | q
      · exact .inl q
      · exact .inr ⟨(o.foot x).2 (.inr (.inl q)), fun q' => (o.own l x q').2 q⟩
    · exact .inr ⟨(o.foot x).2 (.inr (.inr ⟨l', q⟩)), o.dis l' l x hne q⟩

/-- Going down to the node below label `l` to change it in place. -/
theorem found_hole (o : NOpen m h (NRep m h k) a n F t A fn ff) {l : Bytes} {c : Addr} (hc : at_ A l = some (some c)) :
    ∃ F' b G, Hole m h k a c F' G ∧ n.branches = some b ∧ (∀ n', G n' = .mk (some ⟨DL.updAt l n' b.root⟩) n.val) ∧ (∀ x, F' x → F x ∧ ¬ ff l x) := by
  refine ⟨_, ⟨mapT fn (erase A)⟩, _, hole_of (l := l) (ff := ff) o.cell o.lt o.lab o.fn0 hc ?_ ?_ ?_ ?_, ?_, ?_, ?_⟩
  · intro l' p hne hp
    obtain ⟨c', rfl, r⟩ := o.sub l' p hp
    exact ⟨c', rfl, (o.ptr_ne hne hp hc), r⟩
  · intro l' x _; exact o.emp l' x
  · intro l' x _; exact o.own l' x
  · intro l1 l2 x _ _ hne; exact o.dis l1 l2 x hne
  · rw [o.br]
    cases t with
    | none =>
      have : A = .nil := o.lab.cell
      subst this
      simp [at_, RB.get] at hc
    | some b => rfl
  · intro n'
    simp only [Node.mk.injEq, and_true]
    rw [updAt_map (c := c) _ o.lab.srt]
    · cases t with
      | none =>
        have : A = .nil := o.lab.cell
        subst this
        simp [at_, RB.get] at hc
      | some b => rfl
    · intro l' p hp
      have hp := (get_lookup o.lab.srt).2 hp
      constructor
      · rintro rfl
        by_cases e : l' = l
        · exact e
        · exact (o.ptr_ne e hp hc rfl).elim
      · rintro rfl
        exact Option.some.inj (hp.symm.trans hc)
  · rintro x (rfl | q | ⟨l', hne, q⟩)
    · exact ⟨(o.foot x).2 (.inl rfl), fun q => (o.own l x q).1 rfl⟩
    · exact ⟨(o.foot x).2 (.inr (.inl q)), fun q' => (o.own l x q').2 q⟩
    · exact ⟨(o.foot x).2 (.inr (.inr ⟨l', q⟩)), o.dis l' l x hne q⟩

end

end Verif.DomHeap
