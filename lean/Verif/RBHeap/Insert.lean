import Verif.RBHeap.Basic

/-! # `insert` and `inplaceInsert` compute the functional insertion -/

namespace Verif.RBHeap
open Verif.Heap Verif.Heap.Prog Verif.Heap.ATree Verif.Heap.AFrame Verif.RB

variable {K V : Type} {W : Nat → Prop} {h : Heap (RD K V)} {bnd : Nat → Nat} {base : Nat}

theorem repC_zero {D : Type} {h : Heap D} {q : Ptr} {L : List (AFrame D)} (hL : RepC h q L) (x : Nat) (hx : h.next ≤ x) : cntC x L = 0 := by
  have := fun q => repC_lt hL (a := x) q; omega

theorem child_mk2 {D : Type} (d : D) (b : Bool) (x y : BTree D) : (BTree.mk2 d b x y).child b = x := by cases b <;> rfl
theorem child_mk2_not {D : Type} (d : D) (b : Bool) (x y : BTree D) : (BTree.mk2 d b x y).child (!b) = y := by cases b <;> rfl

/-- The part of the conditions that never changes: each address is used at most once, and everything allocated since the
start may be written. -/
structure Perm (W : Nat → Prop) (bnd : Nat → Nat) (base : Nat) : Prop where
  one : ∀ x, bnd x ≤ 1
  fresh : ∀ x, base ≤ x → W x ∧ bnd x = 1

theorem wp_flipCond {a : Nat} {d : RD K V} {l r : ATree (RD K V)} {Q : Bool → Heap (RD K V) → Prop} (ht : Rep h (.node (a, d) l r)) :
    wp W (flipCond (some a)) Q h ↔ Q (isRed (erase l) && isRed (erase r)) h := by
  obtain ⟨h1, h2, hl, hr⟩ := ht
  simp only at h1
  simp only [flipCond, wp_bind, wp_load h1]
  cases l with
  | nil => simp [isRed]
  | node lad ll lr =>
    cases r with
    | nil => simp [isRed]
    | node rad rl rr =>
      simp only [ptr_node, ne_eq, reduceCtorEq, not_false_eq_true, and_self, if_true, wp_bind, wp_redP hl.1]
      rw [wp_andP_read (wp_redP hr.1)]
      rfl

/-- What the first half of an iteration leaves. -/
structure Entered (W : Nat → Prop) (bnd : Nat → Nat) (base : Nat) (q : Ptr) (L : List (AFrame (RD K V))) (t : RTree K V)
    (h : Heap (RD K V)) (foc : ATree (RD K V)) : Prop where
  rep : Rep h foc
  repC : RepC h q L
  cnt : ∀ x, ATree.cnt x foc + cntC x L ≤ bnd x
  base : base ≤ h.next
  own : ∀ a, ptr foc = some a → W a
  erase : erase foc = t

theorem enterCow_spec [Inhabited V] (P : Perm W bnd base) {foc : ATree (RD K V)} {L : List (AFrame (RD K V))} {cd : Ptr} (key : K)
    (hf : Rep h foc) (hL : RepC h (ptr foc) L) (hc : ∀ x, cnt x foc + cntC x L ≤ bnd x) (hb : base ≤ h.next)
    (hcd : ∀ a, ptr foc = some a → cd = some a → W a) :
    wp W (enterCow key (ptr foc) cd) (fun v h' => ∃ foc', v.1 = ptr foc' ∧ Entered W bnd base (ptr foc) L (visit key (erase foc)) h' foc' ∧
      ∀ b a, ptr (foc'.child b) = some a → (if b then v.2.2 else v.2.1) = some a → W a) h := by
  cases foc with
  | nil =>
    simp only [ptr_nil, enterCow, if_true, wp_bind, wp_new, wp_pure]
    refine ⟨.node (h.next, { key := key, value := default, red := true }) .nil .nil, rfl, ⟨?_, ?_, ?_, ?_, ?_, ?_⟩, ?_⟩
    · exact ⟨by simp, by simp, trivial, trivial⟩
    · exact repC_push hL _
    · intro x
      have := hc x; have := repC_zero hL x; have := P.fresh x; grind [cnt_node, cnt_nil]
    · simp; omega
    · intro a ha; cases ha; exact (P.fresh _ hb).1
    · rfl
    · intro b a ha; cases b <;> simp at ha
  | node ad l r =>
    obtain ⟨a, d⟩ := ad
    simp only [ptr_node, enterCow, reduceCtorEq, if_false, wp_bind]
    -- the copy
    have key1 : wp W (copyUnless (some a) cd) (fun n h' => ∃ a', n = some a' ∧
        Entered W bnd base (some a) L (erase (.node (a, d) l r)) h' (.node (a', d) l r)) h := by
      simp only [copyUnless]
      by_cases e : some a = cd
      · simp only [e, ne_eq, not_true_eq_false, if_false]
        rw [← e]
        refine ⟨a, rfl, hf, hL, hc, hb, ?_, rfl⟩
        intro x hx; cases hx; exact hcd a rfl e.symm
      · rw [if_pos e, wp_fullCopy hf.1]
        refine ⟨h.next, rfl, ⟨?_, ?_, ?_, ?_, ?_, rfl⟩⟩
        · exact ⟨by simp, by simp, rep_push hf.2.2.1 _, rep_push hf.2.2.2 _⟩
        · exact repC_push hL _
        · intro x
          have := hc x; have := repC_zero hL x; have := P.fresh x; have := rep_zero hf x
          grind [cnt_node, cnt_nil]
        · simp; omega
        · intro x hx; cases hx; exact (P.fresh _ hb).1
    refine wp_conseq key1 ?_
    rintro n h1 ⟨a', rfl, E⟩
    have Wa := E.own a' rfl
    obtain ⟨m1, m2, hl, hr⟩ := E.rep
    simp only at m1 m2
    simp only [flipCow, wp_bind]
    rw [wp_flipCond E.rep]
    cases el : isRed (erase l) && isRed (erase r) with
    | false =>
      simp only [Bool.false_eq_true, if_false, wp_pure]
      refine ⟨.node (a', d) l r, rfl, ⟨E.rep, E.repC, E.cnt, E.base, E.own, ?_⟩, ?_⟩
      · simp [visit, el]
      · intro b x _ hx; cases b <;> simp at hx
    | true =>
      cases l with
      | nil => simp [isRed] at el
      | node lad ll lr =>
      cases r with
      | nil => simp [isRed] at el
      | node rad rl rr =>
      obtain ⟨la, ld⟩ := lad
      obtain ⟨ra, rd⟩ := rad
      obtain ⟨l1, l2, hll, hlr⟩ := hl
      obtain ⟨r1, r2, hrl, hrr⟩ := hr
      simp only at l1 l2 r1 r2
      have H := E.cnt
      have Ha := H a'
      have hla : a' ≠ la := by have := P.one a'; grind [cnt_node]
      have hra : a' ≠ ra := by have := P.one a'; grind [cnt_node]
      have z1 : cnt a' ll = 0 ∧ cnt a' lr = 0 ∧ cnt a' rl = 0 ∧ cnt a' rr = 0 ∧ cntC a' L = 0 := by
        have := P.one a'; grind [cnt_node]
      simp only [if_true, wp_bind, wp_setRedP m1]
      refine ⟨Wa, ?_⟩
      rw [wp_load (Heap.mem_put_self _ _ _)]
      simp only [ptr_node]
      rw [wp_colorCopy (by rw [Heap.mem_put, if_neg (Ne.symm hla)]; exact l1)]
      rw [wp_colorCopy (by rw [Heap.mem_push, if_neg (by simp only [Heap.next_put]; omega), Heap.mem_put, if_neg (Ne.symm hra)]; exact r1)]
      rw [wp_upd (by
        rw [Heap.mem_push, if_neg (by simp only [Heap.next_push, Heap.next_put]; omega), Heap.mem_push, if_neg (by simp only [Heap.next_put]; omega), Heap.mem_put_self])]
      refine ⟨Wa, ?_⟩
      simp only [wp_pure, Heap.next_push, Heap.next_put]
      refine ⟨.node (a', d.col true) (.node (h1.next, ld.col false) ll lr) (.node (h1.next + 1, rd.col false) rl rr), rfl,
        ⟨⟨by simp, by simp; omega, ⟨?_, by simp only [Heap.next_push, Heap.next_put]; omega, ?_, ?_⟩, ?_, by simp, ?_, ?_⟩, ?_, ?_, ?_, ?_, ?_⟩, ?_⟩
      · simp only
        rw [Heap.mem_put, if_neg (by omega), Heap.mem_push, if_neg (by simp), Heap.mem_push, if_pos (by simp)]
      · exact rep_put (rep_push (rep_push (rep_put hll z1.1 _) _) _) z1.1 _
      · exact rep_put (rep_push (rep_push (rep_put hlr z1.2.1 _) _) _) z1.2.1 _
      · simp only
        rw [Heap.mem_put, if_neg (by omega), Heap.mem_push, if_pos (by simp)]
      · exact rep_put (rep_push (rep_push (rep_put hrl z1.2.2.1 _) _) _) z1.2.2.1 _
      · exact rep_put (rep_push (rep_push (rep_put hrr z1.2.2.2.1 _) _) _) z1.2.2.2.1 _
      · exact repC_put (repC_push (repC_push (repC_put E.repC z1.2.2.2.2 _) _) _) z1.2.2.2.2 _
      · intro x
        have := H x
        have := P.fresh x
        have := repC_zero E.repC x
        have := rep_zero hll x
        have := rep_zero hlr x
        have := rep_zero hrl x
        have := rep_zero hrr x
        have := E.base
        grind [cnt_node]
      · simp; have := E.base; omega
      · intro x hx; cases hx; exact Wa
      · simp only [erase_node] at el
        simp [visit, el, setRed]
      · intro b x hx _
        cases b with
        | false => simp at hx; subst hx; exact (P.fresh _ E.base).1
        | true => simp at hx; subst hx; exact (P.fresh _ (by have := E.base; omega)).1

theorem enterInp_spec [Inhabited V] (P : Perm W bnd base) (hW : ∀ x, 1 ≤ bnd x → W x) {foc : ATree (RD K V)} {F : AFrame (RD K V)}
    {L : List (AFrame (RD K V))} (key : K) (hf : Rep h foc) (hL : RepC h (ptr foc) (F :: L))
    (hc : ∀ x, cnt x foc + cntC x (F :: L) ≤ bnd x) (hb : base ≤ h.next) :
    wp W (enterInp key (some F.a) F.dir (ptr foc)) (fun v h' => ∃ foc', v = ptr foc' ∧
      Entered W bnd base (ptr foc') (F :: L) (visit key (erase foc)) h' foc') h := by
  cases foc with
  | nil =>
    simp only [ptr_nil, enterInp, if_true, wp_bind, wp_new]
    have hL' := repC_push hL (⟨{ key := key, value := default, red := true }, none, none⟩ : Cell (RD K V))
    have HF := hc F.a
    have z : cnt F.a F.sib = 0 ∧ cntC F.a L = 0 := by
      have := P.one F.a; simp at HF; omega
    have hlt := hL.2.1
    rw [wp_setChld hL'.1]
    simp only [ptr_nil, cell2_setChild, wp_pure]
    refine ⟨hW _ (by simp at HF; omega), .node (h.next, { key := key, value := default, red := true }) .nil .nil, rfl, ⟨?_, ?_, ?_, ?_, ?_, rfl⟩⟩
    · refine ⟨?_, by simp, trivial, trivial⟩
      simp only
      rw [Heap.mem_put, if_neg (by omega), Heap.mem_push_self]; rfl
    · exact repC_setTop hL' z.1 z.2
    · intro x
      have := hc x; have := repC_zero hL x; have := P.fresh x; grind [cnt_node, cnt_nil]
    · simp; omega
    · intro a ha; cases ha; exact (P.fresh _ hb).1
  | node ad l r =>
    obtain ⟨a, d⟩ := ad
    have own : ∀ x, 1 ≤ cnt x (.node (a, d) l r) → W x := fun x hx => hW x (by have := hc x; omega)
    have Wa : W a := own a (by simp; omega)
    simp only [ptr_node, enterInp, reduceCtorEq, if_false, wp_bind, flipInp]
    rw [wp_flipCond hf]
    obtain ⟨m1, m2, hl, hr⟩ := id hf
    simp only at m1 m2
    cases el : isRed (erase l) && isRed (erase r) with
    | false =>
      simp only [Bool.false_eq_true, if_false, wp_pure]
      refine ⟨.node (a, d) l r, rfl, ⟨hf, hL, hc, hb, ?_, ?_⟩⟩
      · intro x hx; cases hx; exact Wa
      · simp [visit, el]
    | true =>
      cases l with
      | nil => simp [isRed] at el
      | node lad ll lr =>
      cases r with
      | nil => simp [isRed] at el
      | node rad rl rr =>
      obtain ⟨la, ld⟩ := lad
      obtain ⟨ra, rd⟩ := rad
      obtain ⟨l1, l2, hll, hlr⟩ := hl
      obtain ⟨r1, r2, hrl, hrr⟩ := hr
      simp only at l1 l2 r1 r2
      have ha := hc a
      have hla := hc la
      have hra := hc ra
      have oa := P.one a
      have ola := P.one la
      have ora := P.one ra
      simp only [cnt_node] at ha hla hra
      have n1 : a ≠ la := by grind
      have n2 : a ≠ ra := by grind
      have n3 : la ≠ ra := by grind
      have za : cnt a ll = 0 ∧ cnt a lr = 0 ∧ cnt a rl = 0 ∧ cnt a rr = 0 ∧ cntC a (F :: L) = 0 := by grind
      have zl : cnt la ll = 0 ∧ cnt la lr = 0 ∧ cnt la rl = 0 ∧ cnt la rr = 0 ∧ cntC la (F :: L) = 0 := by grind
      have zr : cnt ra ll = 0 ∧ cnt ra lr = 0 ∧ cnt ra rl = 0 ∧ cnt ra rr = 0 ∧ cntC ra (F :: L) = 0 := by grind
      simp only [if_true, wp_bind, wp_setRedP m1]
      refine ⟨Wa, ?_⟩
      rw [wp_load (Heap.mem_put_self _ _ _)]
      simp only [ptr_node]
      rw [wp_setRedP (by rw [Heap.mem_put, if_neg (Ne.symm n1)]; exact l1)]
      refine ⟨own la (by simp; omega), ?_⟩
      rw [wp_load (by rw [Heap.mem_put, if_neg n1, Heap.mem_put_self])]
      simp only
      rw [wp_setRedP (by rw [Heap.mem_put, if_neg (Ne.symm n3), Heap.mem_put, if_neg (Ne.symm n2)]; exact r1)]
      refine ⟨own ra (by simp; omega), ?_⟩
      simp only [wp_pure]
      refine ⟨.node (a, d.col true) (.node (la, ld.col false) ll lr) (.node (ra, rd.col false) rl rr), rfl,
        ⟨⟨?_, by simp; omega, ⟨?_, by simp; omega, ?_, ?_⟩, ?_, by simp; omega, ?_, ?_⟩, ?_, ?_, ?_, ?_, ?_⟩⟩
      · simp only [Heap.mem_put, if_neg n1, if_neg n2, if_true]; rfl
      · simp only [Heap.mem_put, if_neg n3, if_true]
      · exact rep_put (rep_put (rep_put hll za.1 _) zl.1 _) zr.1 _
      · exact rep_put (rep_put (rep_put hlr za.2.1 _) zl.2.1 _) zr.2.1 _
      · simp only [Heap.mem_put, if_true]
      · exact rep_put (rep_put (rep_put hrl za.2.2.1 _) zl.2.2.1 _) zr.2.2.1 _
      · exact rep_put (rep_put (rep_put hrr za.2.2.2.1 _) zl.2.2.2.1 _) zr.2.2.2.1 _
      · exact repC_put (repC_put (repC_put hL za.2.2.2.2 _) zl.2.2.2.2 _) zr.2.2.2.2 _
      · intro x
        have := hc x
        simp only [cnt_node] at this ⊢
        exact this
      · simp; omega
      · intro x hx; cases hx; exact Wa
      · simp only [erase_node] at el
        simp [visit, el, setRed]

/-! ## Rotations -/

/-- A frame without addresses. -/
def er (F : AFrame (RD K V)) : Frame K V := { d := F.d, dir := F.dir, sib := erase F.sib }

/-- Direction taken at the innermost ancestor. -/
def dirTop : List (AFrame (RD K V)) → Bool
  | [] => false
  | F :: _ => F.dir

/-- What the repair leaves. -/
structure Fixed (W : Nat → Prop) (h0 : Heap (RD K V)) (R : AFrame (RD K V)) (a : Nat) (n0 : ATree (RD K V)) (L0 : List (AFrame (RD K V)))
    (ctx : List (Frame K V)) (T : RTree K V) (F : AFrame (RD K V)) (f : Ptr × Ptr × Bool) (h : Heap (RD K V))
    (Ls : List (AFrame (RD K V))) (n : ATree (RD K V)) : Prop where
  ptr : ATree.ptr n = some a
  rep : Rep h n
  repC : RepC h (some a) (Ls ++ [R])
  ctx : Ls.map er = ctx
  erase : ATree.erase n = T
  cnt : ∀ x, ATree.cnt x n + cntC x (Ls ++ [R]) = ATree.cnt x n0 + cntC x L0
  own : ∀ F ∈ Ls ++ [R], W F.a
  next : h.next = h0.next
  p : f.2.1 = top (Ls ++ [R])
  g : isRed T = true → f.1 = top (Ls ++ [R]).tail ∧ F.dir = dirTop (Ls ++ [R])
  same : f.2.2 = false → ∀ b, ATree.ptr (n.child b) = ATree.ptr (n0.child b)
  dbl : f.2.2 = true → ∀ b x, ATree.ptr (n.child b) = some x → W x

theorem fixP_spec (P : Perm W bnd base) {Ls : List (AFrame (RD K V))} {R F : AFrame (RD K V)} {L : List (AFrame (RD K V))}
    {a : Nat} {d : RD K V} {l r : ATree (RD K V)} {gp g : Ptr} {parentDir : Bool} {ctx : List (Frame K V)} {T : RTree K V}
    (hn : Rep h (.node (a, d) l r)) (hL : RepC h (some a) (Ls ++ [R])) (hR : R.d.red = false)
    (hc : ∀ x, cnt x (.node (a, d) l r) + cntC x (Ls ++ [R]) ≤ bnd x) (own : ∀ F ∈ Ls ++ [R], W F.a) (Wa : W a)
    (eL : Ls ++ [R] = F :: L) (hg : g = top L) (hgp : F.d.red = true → gp = top L.tail ∧ parentDir = dirTop L)
    (hfx : fix (Ls.map er) (erase (.node (a, d) l r)) = some (ctx, T)) :
    wp W (fixP gp g (some F.a) (some a) parentDir) (fun f h' => ∃ Ls' n, Fixed W h R a (.node (a, d) l r) (Ls ++ [R]) ctx T F f h' Ls' n) h := by
  have hF : h.mem F.a = some (cell2 F.d F.dir (some a) (ptr F.sib)) := by rw [eL] at hL; exact hL.1
  have m1 := hn.1
  simp only at m1
  simp only [fixP, wp_bind, wp_redP m1]
  rw [wp_andP_read (wp_isRedP hF), cell2_d]
  have epr : parentRed (Ls.map er) = F.d.red := by
    cases Ls with
    | nil => simp at eL; rw [← eL.1]; simp [parentRed, hR]
    | cons F0 Ls0 => simp at eL; rw [← eL.1]; simp [parentRed, er]
  cases ev : d.red && F.d.red with
  | false =>
    simp only [Bool.false_eq_true, if_false, wp_pure]
    have e : fix (Ls.map er) (erase (.node (a, d) l r)) = some (Ls.map er, erase (.node (a, d) l r)) := by
      unfold fix; rw [epr]; simp [isRed, ev]
    rw [e] at hfx
    cases hfx
    refine ⟨Ls, .node (a, d) l r, rfl, hn, hL, rfl, rfl, fun _ => rfl, own, rfl, ?_, ?_, fun _ _ => rfl, fun h => by cases h⟩
    · rw [eL]; rfl
    · intro _; rw [eL]; exact ⟨hg, rfl⟩
  | true =>
    simp only [if_true]
    have ev' : d.red = true ∧ F.d.red = true := by simpa using ev
    obtain ⟨egp, epd⟩ := hgp ev'.2
    cases Ls with
    | nil => simp at eL; rw [← eL.1, hR] at ev'; cases ev'.2
    | cons F0 Ls0 =>
    obtain ⟨rfl, eL'⟩ : F0 = F ∧ Ls0 ++ [R] = L := by simpa using eL
    cases Ls0 with
    | nil => unfold fix at hfx; rw [epr] at hfx; simp [isRed, ev] at hfx
    | cons G rest =>
    obtain ⟨F2, L2, e2⟩ : ∃ F2 L2, rest ++ [R] = F2 :: L2 := by cases rest <;> simp
    subst eL'
    simp only [List.cons_append, e2, top_cons, dirTop, List.tail_cons] at egp epd hg own hL hc ⊢
    subst egp epd hg
    obtain ⟨f1, f2, f3, hG, g2, g3, hF2, k2, k3, k4⟩ := hL
    have Wf : W F0.a := own _ (by simp)
    have Wg : W G.a := own _ (by simp)
    have W2 : W F2.a := own _ (by simp)
    have ca := hc a; have cf := hc F0.a; have cg := hc G.a; have c2 := hc F2.a
    have oa := P.one a; have of := P.one F0.a; have og := P.one G.a; have o2 := P.one F2.a
    simp only [cnt_node, cntC_cons] at ca cf cg c2
    have n1 : a ≠ F0.a := by grind
    have n2 : a ≠ G.a := by grind
    have n3 : a ≠ F2.a := by grind
    have n4 : F0.a ≠ G.a := by grind
    have n5 : F0.a ≠ F2.a := by grind
    have n6 : G.a ≠ F2.a := by grind
    have za : cnt a l = 0 ∧ cnt a r = 0 ∧ cnt a F0.sib = 0 ∧ cnt a G.sib = 0 ∧ cnt a F2.sib = 0 ∧ cntC a L2 = 0 := by grind
    have zf : cnt F0.a l = 0 ∧ cnt F0.a r = 0 ∧ cnt F0.a F0.sib = 0 ∧ cnt F0.a G.sib = 0 ∧ cnt F0.a F2.sib = 0 ∧ cntC F0.a L2 = 0 := by grind
    have zg : cnt G.a l = 0 ∧ cnt G.a r = 0 ∧ cnt G.a F0.sib = 0 ∧ cnt G.a G.sib = 0 ∧ cnt G.a F2.sib = 0 ∧ cntC G.a L2 = 0 := by grind
    have z2 : cnt F2.a l = 0 ∧ cnt F2.a r = 0 ∧ cnt F2.a F0.sib = 0 ∧ cnt F2.a G.sib = 0 ∧ cnt F2.a F2.sib = 0 ∧ cntC F2.a L2 = 0 := by grind
    have egd : decide ((cell2 F2.d F2.dir (some G.a) (ptr F2.sib)).c1 = some G.a) = F2.dir := by
      cases e : F2.dir with
      | true => simp [cell2]
      | false =>
        have : ptr F2.sib ≠ some G.a := by
          intro h; cases hs : F2.sib with
          | nil => rw [hs] at h; cases h
          | node ad x y => rw [hs] at h zg; simp only [ptr_node, Option.some.injEq] at h; have := zg.2.2.2.2.1; simp [h] at this
        simp [cell2, this]
    simp only [rotP, wp_bind, wp_load hF2, egd, wp_load hF]
    have epd : (some a = (cell2 F0.d F0.dir (some a) (ptr F0.sib)).child G.dir) ↔ F0.dir = G.dir := by
      by_cases e : F0.dir = G.dir
      · simp [← e]
      · have e' : G.dir = !F0.dir := by cases h1 : F0.dir <;> cases h2 : G.dir <;> simp_all
        have : some a ≠ ptr F0.sib := by
          intro h; cases hs : F0.sib with
          | nil => rw [hs] at h; cases h
          | node ad x y => rw [hs] at h za; simp only [ptr_node, Option.some.injEq] at h; have := za.2.2.1; simp [h] at this
        simp [e', this]
    simp only [epd]
    have hrep : ∀ (t : ATree (RD K V)) {b1 b2 b3 : Nat} {x y z : Cell (RD K V)} , Rep h t → cnt b1 t = 0 → cnt b2 t = 0 → cnt b3 t = 0 →
        Rep (((h.put b1 x).put b2 y).put b3 z) t := fun t _ _ _ _ _ _ q q1 q2 q3 => rep_put (rep_put (rep_put q q1 _) q2 _) q3 _
    by_cases edir : F0.dir = G.dir
    · rw [if_pos edir]
      simp only [wp_bind]
      refine wp_single (a := G.a) (b := F0.a) (da := G.d) (db := F0.d) (dir := G.dir) (x := ptr G.sib) (y := some a) (z := ptr F0.sib)
        hG (by rw [hF, edir]) (Ne.symm n4) Wg Wf ?_
      have hF2' := fun c c' => (show ((h.put G.a c).put F0.a c').mem F2.a = some (cell2 F2.d F2.dir (some G.a) (ptr F2.sib)) by
        rw [Heap.mem_put, if_neg (Ne.symm n5), Heap.mem_put, if_neg (Ne.symm n6), hF2])
      rw [wp_setChld (hF2' _ _), cell2_setChild]
      refine ⟨W2, ?_⟩
      simp only [wp_pure]
      have efx : fix (er F0 :: er G :: rest.map er) (erase (.node (a, d) l r)) =
          some ({ d := F0.d.col false, dir := F0.dir, sib := .mk2 (G.d.col true) G.dir (erase F0.sib) (erase G.sib) } :: rest.map er, erase (.node (a, d) l r)) := by
        simp [fix, isRed, ev'.1, parentRed, er, ev'.2, edir]
      rw [List.map_cons, List.map_cons, efx] at hfx
      cases hfx
      refine ⟨{ a := F0.a, d := F0.d.col false, dir := F0.dir, sib := .mk2 (G.a, G.d.col true) G.dir F0.sib G.sib } :: rest, .node (a, d) l r, rfl, ?_, ?_, ?_, rfl, ?_, ?_, rfl, ?_, ?_, fun _ _ => rfl, fun h => by cases h⟩
      · refine ⟨?_, ?_, hrep _ hn.2.2.1 zg.1 zf.1 z2.1, hrep _ hn.2.2.2 zg.2.1 zf.2.1 z2.2.1⟩
        · simp only [Heap.mem_put, if_neg n1, if_neg n2, if_neg n3]; exact m1
        · exact hn.2.1
      · rw [List.cons_append, e2]
        refine ⟨?_, f2, ?_, ?_, k2, ?_, ?_⟩
        · simp only [Heap.mem_put, if_neg n5, if_true, ptr_mk2, edir]
        · rw [rep_mk2]
          refine ⟨?_, g2, hrep _ f3 zg.2.2.1 zf.2.2.1 z2.2.2.1, hrep _ g3 zg.2.2.2.1 zf.2.2.2.1 z2.2.2.2.1⟩
          simp only [Heap.mem_put, if_neg n6, if_neg (Ne.symm n4), if_true]
        · simp only [Heap.mem_put, if_true]
        · exact hrep _ k3 zg.2.2.2.2.1 zf.2.2.2.2.1 z2.2.2.2.2.1
        · exact repC_put (repC_put (repC_put k4 zg.2.2.2.2.2 _) zf.2.2.2.2.2 _) z2.2.2.2.2.2 _
      · simp [er]
      · intro x; rw [List.cons_append, e2]; simp only [cnt_node, cntC_cons, cnt_mk2]; omega
      · intro F hF; rw [List.cons_append, e2] at hF
        rcases List.mem_cons.1 hF with rfl | hF
        · exact Wf
        · exact own _ (by simp only [List.mem_cons] at hF ⊢; exact .inr (.inr hF))
      · simp
      · intro _; rw [List.cons_append, e2]; simp [dirTop]
    · rw [if_neg edir]
      have edir' : F0.dir = !G.dir := by cases h1 : F0.dir <;> cases h2 : G.dir <;> simp_all
      simp only [wp_bind]
      refine wp_double (a := G.a) (b := F0.a) (c := a) (da := G.d) (db := F0.d) (dc := d) (dir := G.dir) (x := ptr G.sib) (y := ptr F0.sib)
        (u := ptr ((BTree.node (a, d) l r).child G.dir)) (v := ptr ((BTree.node (a, d) l r).child (!G.dir)))
        hG (by rw [hF, edir', cell2_flip]) (by rw [m1]; exact congrArg some (node_cell2 a d l r G.dir))
        (Ne.symm n4) (Ne.symm n2) (Ne.symm n1) Wg Wf Wa ?_
      have hF2' := fun c c' c'' => (show (((h.put F0.a c).put G.a c').put a c'').mem F2.a = some (cell2 F2.d F2.dir (some G.a) (ptr F2.sib)) by
        rw [Heap.mem_put, if_neg (Ne.symm n3), Heap.mem_put, if_neg (Ne.symm n6), Heap.mem_put, if_neg (Ne.symm n5), hF2])
      rw [wp_setChld (hF2' _ _ _), cell2_setChild]
      refine ⟨W2, ?_⟩
      simp only [wp_pure]
      have efx : fix (er F0 :: er G :: rest.map er) (erase (.node (a, d) l r)) =
          some (rest.map er, .mk2 (d.col false) G.dir
            (.mk2 (F0.d.col true) G.dir (erase F0.sib) ((erase (.node (a, d) l r)).child G.dir))
            (.mk2 (G.d.col true) G.dir ((erase (.node (a, d) l r)).child (!G.dir)) (erase G.sib))) := by
        simp [fix, isRed, ev'.1, parentRed, er, ev'.2, edir']
      rw [List.map_cons, List.map_cons, efx] at hfx
      cases hfx
      have hch : ∀ b, cnt a ((BTree.node (a, d) l r).child b) = 0 ∧ cnt F0.a ((BTree.node (a, d) l r).child b) = 0 ∧
          cnt G.a ((BTree.node (a, d) l r).child b) = 0 ∧ cnt F2.a ((BTree.node (a, d) l r).child b) = 0 := by
        intro b; cases b <;> simp [za, zf, zg, z2]
      have hrep : ∀ (t : ATree (RD K V)) {x y z w : Cell (RD K V)}, Rep h t → cnt F0.a t = 0 → cnt G.a t = 0 → cnt a t = 0 → cnt F2.a t = 0 →
        Rep ((((h.put F0.a x).put G.a y).put a z).put F2.a w) t := fun t _ _ _ _ q q1 q2 q3 q4 => rep_put (rep_put (rep_put (rep_put q q1 _) q2 _) q3 _) q4 _
      refine ⟨rest, .mk2 (a, d.col false) G.dir
            (.mk2 (F0.a, F0.d.col true) G.dir F0.sib ((BTree.node (a, d) l r).child G.dir))
            (.mk2 (G.a, G.d.col true) G.dir ((BTree.node (a, d) l r).child (!G.dir)) G.sib), by simp, ?_, ?_, rfl, ?_, ?_, ?_, rfl, ?_, ?_, fun h => (by cases h), ?_⟩
      · rw [rep_mk2]
        refine ⟨?_, hn.2.1, ?_, ?_⟩
        · simp only [Heap.mem_put, if_neg n3, if_true, ptr_mk2]
        · rw [rep_mk2]
          refine ⟨?_, f2, hrep _ f3 zf.2.2.1 zg.2.2.1 za.2.2.1 z2.2.2.1, hrep _ (rep_child hn _) (hch _).2.1 (hch _).2.2.1 (hch _).1 (hch _).2.2.2⟩
          simp only [Heap.mem_put, if_neg n5, if_neg (Ne.symm n1), if_neg n4, if_true]
        · rw [rep_mk2]
          refine ⟨?_, g2, hrep _ (rep_child hn _) (hch _).2.1 (hch _).2.2.1 (hch _).1 (hch _).2.2.2, hrep _ g3 zf.2.2.2.1 zg.2.2.2.1 za.2.2.2.1 z2.2.2.2.1⟩
          simp only [Heap.mem_put, if_neg n6, if_neg (Ne.symm n2), if_true]
      · rw [e2]
        refine ⟨?_, k2, ?_, ?_⟩
        · simp only [Heap.mem_put, if_true]
        · exact hrep _ k3 zf.2.2.2.2.1 zg.2.2.2.2.1 za.2.2.2.2.1 z2.2.2.2.2.1
        · exact repC_put (repC_put (repC_put (repC_put k4 zf.2.2.2.2.2 _) zg.2.2.2.2.2 _) za.2.2.2.2.2 _) z2.2.2.2.2.2 _
      · simp only [erase_mk2, erase_child]
      · intro x; rw [e2]
        have := cnt_child x (a, d) l r G.dir
        simp only [cntC_cons, cnt_mk2, this]; omega
      · intro F hF; rw [e2] at hF
        exact own _ (by simp only [List.mem_cons] at hF ⊢; exact .inr (.inr hF))
      · simp [e2]
      · intro hr; exfalso; revert hr; cases G.dir <;> simp [BTree.mk2, isRed, RD.col]
      · intro _ b x hx
        by_cases e : b = G.dir
        · subst e; rw [child_mk2, ptr_mk2] at hx; cases hx; exact Wf
        · have e' : b = !G.dir := by cases h1 : b <;> cases h2 : G.dir <;> simp_all
          subst e'; rw [child_mk2_not, ptr_mk2] at hx; cases hx; exact Wg

/-! ## The loops -/

/-- State at the head of an iteration: the current node is the innermost ancestor `F` and the next one is its child `foc`. -/
structure Head (W : Nat → Prop) (bnd : Nat → Nat) (base : Nat) (R : AFrame (RD K V)) (Ls : List (AFrame (RD K V))) (F : AFrame (RD K V))
    (L : List (AFrame (RD K V))) (foc : ATree (RD K V)) (s : St) (h : Heap (RD K V)) : Prop where
  eL : Ls ++ [R] = F :: L
  rep : Rep h foc
  repC : RepC h (ptr foc) (Ls ++ [R])
  cnt : ∀ x, ATree.cnt x foc + cntC x (Ls ++ [R]) ≤ bnd x
  own : ∀ F ∈ Ls ++ [R], W F.a
  base : base ≤ h.next
  n : s.n = some F.a
  dir : decide (s.r < 0) = F.dir
  p : s.p = top L
  g : F.d.red = true → s.g = top L.tail ∧ s.dir = dirTop L

/-- State after an iteration whose node is `node (a, d) l r` under the ancestors `Ls`. -/
structure Iter (W : Nat → Prop) (bnd : Nat → Nat) (base : Nat) (R : AFrame (RD K V)) (Ls : List (AFrame (RD K V)))
    (a : Nat) (d : RD K V) (l r : ATree (RD K V)) (s : St) (h : Heap (RD K V)) : Prop where
  rep : Rep h (.node (a, d) l r)
  repC : RepC h (some a) (Ls ++ [R])
  cnt : ∀ x, ATree.cnt x (.node (a, d) l r) + cntC x (Ls ++ [R]) ≤ bnd x
  own : ∀ F ∈ Ls ++ [R], W F.a
  ownA : W a
  base : base ≤ h.next
  n : s.n = some a
  p : s.p = top (Ls ++ [R])
  g : d.red = true → s.g = top (Ls ++ [R]).tail ∧ s.dir = dirTop (Ls ++ [R])

theorem Iter.head {R : AFrame (RD K V)} {Ls : List (AFrame (RD K V))} {a : Nat} {d : RD K V} {l r : ATree (RD K V)} {s : St}
    (I : Iter W bnd base R Ls a d l r s h) :
    Head W bnd base R (⟨a, d, decide (s.r < 0), (BTree.node (a, d) l r).child (!decide (s.r < 0))⟩ :: Ls)
      ⟨a, d, decide (s.r < 0), (BTree.node (a, d) l r).child (!decide (s.r < 0))⟩ (Ls ++ [R]) ((BTree.node (a, d) l r).child (decide (s.r < 0))) s h := by
  refine ⟨rfl, rep_child I.rep _, ?_, ?_, ?_, I.base, I.n, rfl, I.p, I.g⟩
  · refine ⟨?_, I.rep.2.1, rep_child I.rep _, I.repC⟩
    rw [I.rep.1]; exact congrArg some (node_cell2 a d l r _)
  · intro x
    have := I.cnt x
    rw [cnt_child x _ _ _ (decide (s.r < 0))] at this
    rw [List.cons_append, cntC_cons]; simp only at this ⊢; omega
  · intro F hF
    rcases List.mem_cons.1 hF with rfl | hF
    · exact I.ownA
    · exact I.own _ hF

/-- After the first half, the pointer to the current node is stored in the parent. -/
theorem Entered.link {q : Ptr} {F : AFrame (RD K V)} {L : List (AFrame (RD K V))} {t : RTree K V} {foc : ATree (RD K V)}
    (P : Perm W bnd base) (E : Entered W bnd base q (F :: L) t h foc) :
    Entered W bnd base (ptr foc) (F :: L) t (h.put F.a (cell2 F.d F.dir (ptr foc) (ptr F.sib))) foc := by
  have z : ATree.cnt F.a foc = 0 ∧ ATree.cnt F.a F.sib = 0 ∧ cntC F.a L = 0 := by
    have := E.cnt F.a; have := P.one F.a; simp at *; omega
  exact ⟨rep_put E.rep z.1 _, repC_setTop E.repC z.2.1 z.2.2, E.cnt, E.base, E.own, E.erase⟩

/-- Second half: repair and comparison. -/
theorem fix_iter (P : Perm W bnd base) {cmp : K → K → Int} {key : K} {R : AFrame (RD K V)} {Ls : List (AFrame (RD K V))} {F : AFrame (RD K V)}
    {L : List (AFrame (RD K V))} {t : RTree K V} {foc : ATree (RD K V)} {n g gp : Ptr} {pd : Bool} {ctx : List (Frame K V)} {d : RD K V} {l r : RTree K V}
    (eL : Ls ++ [R] = F :: L) (hR : R.d.red = false) (E : Entered W bnd base (ptr foc) (F :: L) t h foc) (en : n = ptr foc)
    (own : ∀ F ∈ Ls ++ [R], W F.a) (hg : g = top L) (hgp : F.d.red = true → gp = top L.tail ∧ pd = dirTop L)
    (hfx : fix (Ls.map er) t = some (ctx, .node d l r)) :
    ∃ a, n = some a ∧ wp W (fixP gp g (some F.a) n pd) (fun f h' => ∃ Ls' l' r', Ls'.map er = ctx ∧ erase l' = l ∧ erase r' = r ∧
      Iter W bnd base R Ls' a d l' r' { dir := F.dir, g := f.1, p := f.2.1, n := n, r := cmp d.key key } h' ∧
      (f.2.2 = false → ∀ b, ptr ((BTree.node (a, d) l' r').child b) = ptr (foc.child b)) ∧
      (f.2.2 = true → ∀ b x, ptr ((BTree.node (a, d) l' r').child b) = some x → W x)) h := by
  subst en
  cases foc with
  | nil =>
    rw [← E.erase] at hfx
    exfalso
    simp [fix, isRed] at hfx
  | node ad fl fr =>
    obtain ⟨a, fd⟩ := ad
    refine ⟨a, rfl, ?_⟩
    have hL := E.repC
    rw [← eL] at hL
    have hc := E.cnt
    rw [← eL] at hc
    rw [← E.erase] at hfx
    refine wp_conseq (fixP_spec P E.rep hL hR hc own (E.own _ rfl) eL hg hgp hfx) ?_
    rintro f h' ⟨Ls', n', X⟩
    have e1 := X.erase
    have e2 := X.ptr
    cases n' with
    | nil => cases e1
    | node ad l' r' =>
      obtain ⟨a', d'⟩ := ad
      cases e2
      simp only [erase_node, BTree.node.injEq] at e1
      obtain ⟨rfl, e1, e3⟩ := e1
      refine ⟨Ls', l', r', X.ctx, e1, e3, ⟨X.rep, X.repC, fun x => by rw [X.cnt]; exact hc x, X.own, E.own _ rfl, by rw [X.next]; exact E.base, rfl, X.p, fun hr => X.g hr⟩, X.same, X.dbl⟩

theorem insIter_spec [Inhabited V] (P : Perm W bnd base) {cmp : K → K → Int} {key : K} {R : AFrame (RD K V)} {Ls : List (AFrame (RD K V))} {F : AFrame (RD K V)}
    {L : List (AFrame (RD K V))} {foc : ATree (RD K V)} {s : St} {c : Ptr × Ptr} {ctx : List (Frame K V)} {d : RD K V} {l r : RTree K V}
    (hR : R.d.red = false) (H : Head W bnd base R Ls F L foc s h)
    (hcd : ∀ a, ptr foc = some a → (if F.dir then c.2 else c.1) = some a → W a)
    (hfx : fix (Ls.map er) (visit key (erase foc)) = some (ctx, .node d l r)) :
    wp W (insIter cmp key s c) (fun x h' => ∃ Ls' a l' r', Ls'.map er = ctx ∧ erase l' = l ∧ erase r' = r ∧
      Iter W bnd base R Ls' a d l' r' x.1 h' ∧ x.1.r = cmp d.key key ∧
      ∀ b x', ptr ((BTree.node (a, d) l' r').child b) = some x' → (if b then x.2.2 else x.2.1) = some x' → W x') h := by
  have hL := H.repC
  rw [H.eL] at hL
  have hc := H.cnt
  rw [H.eL] at hc
  simp only [insIter, wp_bind, H.n, wp_load hL.1, H.dir, cell2_child]
  refine wp_conseq (enterCow_spec P key H.rep hL hc H.base hcd) ?_
  rintro v h1 ⟨foc', ev, E, hch⟩
  rw [wp_setChld E.repC.1, cell2_setChild]
  refine ⟨H.own F (by rw [H.eL]; simp), ?_⟩
  rw [ev]
  have E := E.link P
  obtain ⟨a, ea, hw⟩ := fix_iter P (cmp := cmp) (key := key) H.eL hR E rfl H.own H.p H.g hfx
  rw [ea] at hw ⊢
  refine wp_conseq hw ?_
  rintro f h2 ⟨Ls', l', r', e1, e2, e3, I, i1, i2⟩
  have m := I.rep.1
  simp only at m
  have fin : ∀ cc : Ptr × Ptr, (∀ b x', ptr ((BTree.node (a, d) l' r').child b) = some x' → (if b then cc.2 else cc.1) = some x' → W x') →
      wp W (load (some a)) (fun k h' => wp W (pure ({ dir := F.dir, g := f.1, p := f.2.1, n := some a, r := cmp k.d.key key }, cc))
        (fun x h' => ∃ Ls' a l' r', Ls'.map er = ctx ∧ erase l' = l ∧ erase r' = r ∧
          Iter W bnd base R Ls' a d l' r' x.1 h' ∧ x.1.r = cmp d.key key ∧
          ∀ b x', ptr ((BTree.node (a, d) l' r').child b) = some x' → (if b then x.2.2 else x.2.1) = some x' → W x') h') h2 := by
    intro cc hcc
    rw [wp_load m]
    exact ⟨Ls', a, l', r', e1, e2, e3, I, rfl, hcc⟩
  cases ed : f.2.2 with
  | false =>
    simp only [reC, Bool.false_eq_true, if_false, wp_pure]
    refine fin _ fun b x' hx hx' => hch b x' ?_ hx'
    rw [← i1 ed b]; exact hx
  | true =>
    simp only [reC, if_true, wp_bind, wp_load m, wp_pure]
    exact ⟨Ls', a, l', r', e1, e2, e3, I, trivial, fun b x' hx _ => i2 ed b x' hx⟩

theorem inpIter_spec [Inhabited V] (P : Perm W bnd base) (hW : ∀ x, 1 ≤ bnd x → W x) {cmp : K → K → Int} {key : K} {R : AFrame (RD K V)} {Ls : List (AFrame (RD K V))} {F : AFrame (RD K V)}
    {L : List (AFrame (RD K V))} {foc : ATree (RD K V)} {s : St} {ctx : List (Frame K V)} {d : RD K V} {l r : RTree K V}
    (hR : R.d.red = false) (H : Head W bnd base R Ls F L foc s h)
    (hfx : fix (Ls.map er) (visit key (erase foc)) = some (ctx, .node d l r)) :
    wp W (inpIter cmp key s) (fun x h' => ∃ Ls' a l' r', Ls'.map er = ctx ∧ erase l' = l ∧ erase r' = r ∧
      Iter W bnd base R Ls' a d l' r' x h' ∧ x.r = cmp d.key key) h := by
  have hL := H.repC
  rw [H.eL] at hL
  have hc := H.cnt
  rw [H.eL] at hc
  simp only [inpIter, wp_bind, H.n, wp_load hL.1, H.dir, cell2_child]
  refine wp_conseq (enterInp_spec P hW key H.rep hL hc H.base) ?_
  rintro v h1 ⟨foc', ev, E⟩
  rw [ev]
  obtain ⟨a, ea, hw⟩ := fix_iter P (cmp := cmp) (key := key) H.eL hR E rfl H.own H.p H.g hfx
  rw [ea] at hw ⊢
  refine wp_conseq hw ?_
  rintro f h2 ⟨Ls', l', r', e1, e2, e3, I, i1, i2⟩
  have m := I.rep.1
  simp only at m
  rw [wp_load m]
  exact ⟨Ls', a, l', r', e1, e2, e3, I, rfl⟩

/-- State when the loop has ended at the node `node (a, d) l r`. -/
def Ended (W : Nat → Prop) (bnd : Nat → Nat) (base : Nat) (R : AFrame (RD K V)) (value : V) (T : RTree K V) (s : St) (h : Heap (RD K V)) : Prop :=
  ∃ Ls a d l r, Iter W bnd base R Ls a d l r s h ∧ T = RB.plug (.node { d with value := value } (erase l) (erase r)) (Ls.map er)

theorem insLoop_unfold [Inhabited V] {cmp : K → K → Int} {key : K} {value : V} {f : Nat} {ctx : List (Frame K V)} {foc T : RTree K V}
    (hT : insLoop cmp key value (f + 1) ctx foc = some T) : ∃ ctx' d l r, fix ctx (visit key foc) = some (ctx', .node d l r) ∧
      (cmp d.key key = 0 → T = RB.plug (.node { d with value := value } l r) ctx') ∧
      (cmp d.key key ≠ 0 → insLoop cmp key value f ({ d := d, dir := decide (cmp d.key key < 0), sib := (BTree.node d l r).child (!decide (cmp d.key key < 0)) } :: ctx')
        ((BTree.node d l r).child (decide (cmp d.key key < 0))) = some T) := by
  simp only [insLoop] at hT
  split at hT
  · rename_i ctx' d l r hfx
    refine ⟨ctx', d, l, r, hfx, ?_, ?_⟩
    · intro h0; simp only [h0, if_true, Option.some.injEq] at hT; exact hT.symm
    · intro h0
      rw [if_neg h0] at hT
      by_cases h1 : cmp d.key key < 0
      · simpa [h1] using hT
      · simpa [h1] using hT
  · cases hT

theorem insLoopP_spec [Inhabited V] (P : Perm W bnd base) {cmp : K → K → Int} {key : K} {value : V} {R : AFrame (RD K V)} (hR : R.d.red = false)
    (k : Nat) {f : Nat} (hf : k + 1 ≤ f) {Ls : List (AFrame (RD K V))} {F : AFrame (RD K V)}
    {L : List (AFrame (RD K V))} {foc : ATree (RD K V)} {s : St} {c : Ptr × Ptr} {h : Heap (RD K V)} {T : RTree K V}
    (H : Head W bnd base R Ls F L foc s h) (hr : s.r ≠ 0)
    (hcd : ∀ a, ptr foc = some a → (if F.dir then c.2 else c.1) = some a → W a)
    (hT : insLoop cmp key value k (Ls.map er) (erase foc) = some T) :
    wp W (insLoopP cmp key f s c) (fun s' h' => Ended W bnd base R value T s' h') h := by
  induction k generalizing f Ls F L foc s c h with
  | zero => simp [insLoop] at hT
  | succ k ih =>
    obtain ⟨f, rfl⟩ : ∃ f', f = f' + 1 := ⟨f - 1, by omega⟩
    obtain ⟨ctx', d, l, r, hfx, h0, h1⟩ := insLoop_unfold hT
    simp only [insLoopP, if_pos hr, wp_bind]
    refine wp_conseq (insIter_spec P hR H hcd hfx) ?_
    rintro ⟨s', c'⟩ h' ⟨Ls', a, l', r', rfl, rfl, rfl, I, er', hc'⟩
    simp only at I er' hc' ⊢
    by_cases e0 : cmp d.key key = 0
    · obtain ⟨f, rfl⟩ : ∃ f', f = f' + 1 := ⟨f - 1, by omega⟩
      simp only [insLoopP, er', e0, ne_eq, not_true_eq_false, if_false, wp_pure]
      exact ⟨Ls', a, d, l', r', I, h0 e0⟩
    · have Hd := I.head
      refine ih (by omega) Hd (by rw [er']; exact e0) ?_ ?_
      · intro x hx hx'; exact hc' _ x hx hx'
      · rw [List.map_cons, er', erase_child]
        simp only [er, erase_child]
        exact h1 e0

theorem inpLoopP_spec [Inhabited V] (P : Perm W bnd base) (hW : ∀ x, 1 ≤ bnd x → W x) {cmp : K → K → Int} {key : K} {value : V} {R : AFrame (RD K V)} (hR : R.d.red = false)
    (k : Nat) {f : Nat} (hf : k + 1 ≤ f) {Ls : List (AFrame (RD K V))} {F : AFrame (RD K V)}
    {L : List (AFrame (RD K V))} {foc : ATree (RD K V)} {s : St} {h : Heap (RD K V)} {T : RTree K V}
    (H : Head W bnd base R Ls F L foc s h) (hr : s.r ≠ 0)
    (hT : insLoop cmp key value k (Ls.map er) (erase foc) = some T) :
    wp W (inpLoopP cmp key f s) (fun s' h' => Ended W bnd base R value T s' h') h := by
  induction k generalizing f Ls F L foc s h with
  | zero => simp [insLoop] at hT
  | succ k ih =>
    obtain ⟨f, rfl⟩ : ∃ f', f = f' + 1 := ⟨f - 1, by omega⟩
    obtain ⟨ctx', d, l, r, hfx, h0, h1⟩ := insLoop_unfold hT
    simp only [inpLoopP, if_pos hr, wp_bind]
    refine wp_conseq (inpIter_spec P hW hR H hfx) ?_
    rintro s' h' ⟨Ls', a, l', r', rfl, rfl, rfl, I, er'⟩
    by_cases e0 : cmp d.key key = 0
    · obtain ⟨f, rfl⟩ : ∃ f', f = f' + 1 := ⟨f - 1, by omega⟩
      simp only [inpLoopP, er', e0, ne_eq, not_true_eq_false, if_false, wp_pure]
      exact ⟨Ls', a, d, l', r', I, h0 e0⟩
    · have Hd := I.head
      refine ih (by omega) Hd (by rw [er']; exact e0) ?_
      rw [List.map_cons, er', erase_child]
      simp only [er, erase_child]
      exact h1 e0

theorem erase_plug (t : ATree (RD K V)) (L : List (AFrame (RD K V))) : erase (AFrame.plug L t) = RB.plug (erase t) (L.map er) := by
  induction L generalizing t with
  | nil => rfl
  | cons F L ih => simp [AFrame.plug, RB.plug, ih, er]

theorem plug_append (L M : List (AFrame (RD K V))) (t : ATree (RD K V)) : AFrame.plug (L ++ M) t = AFrame.plug M (AFrame.plug L t) := by
  induction L generalizing t with
  | nil => rfl
  | cons F L ih => simp [AFrame.plug, ih]

theorem ptr_plug_mem (L : List (AFrame (RD K V))) (t : ATree (RD K V)) {x : Nat} (hx : ptr (AFrame.plug L t) = some x) :
    (∃ F ∈ L, F.a = x) ∨ ptr t = some x := by
  induction L generalizing t with
  | nil => exact .inr hx
  | cons F L ih =>
    rcases ih _ hx with ⟨G, hG, e⟩ | e
    · exact .inl ⟨G, List.mem_cons_of_mem _ hG, e⟩
    · rw [ptr_mk2] at e; cases e; exact .inl ⟨F, by simp, rfl⟩

theorem finish_spec (P : Perm W bnd base) {value : V} {R : AFrame (RD K V)} (hd : R.dir = true) {T : RTree K V} {s : St}
    (E : Ended W bnd base R value T s h) :
    wp W (finish (some R.a) s.n value) (fun p h' => ∃ A, p = ptr A ∧ Rep h' A ∧ erase A = setRed false T ∧ ∀ x, cnt x A ≤ bnd x) h := by
  obtain ⟨Ls, a, d, l, r, I, rfl⟩ := E
  have ha := I.cnt a
  have oa := P.one a
  have z : cnt a l = 0 ∧ cnt a r = 0 ∧ cntC a (Ls ++ [R]) = 0 := by simp only [cnt_node, if_true] at ha; omega
  have m := I.rep.1
  simp only at m
  simp only [finish, wp_bind, I.n, wp_upd m]
  refine ⟨I.ownA, ?_⟩
  generalize hh : h.put a { d := { key := d.key, value := value, red := d.red }, c0 := ptr l, c1 := ptr r } = h1
  have R1 : Rep h1 (.node (a, { d with value := value }) l r) := by
    subst hh
    exact ⟨by simp, I.rep.2.1, rep_put I.rep.2.2.1 z.1 _, rep_put I.rep.2.2.2 z.2.1 _⟩
  have R2 : RepC h1 (some a) (Ls ++ [R]) := by subst hh; exact repC_put I.repC z.2.2 _
  have R3 := (AFrame.rep_plug (Ls ++ [R]) (.node (a, { d with value := value }) l r)).2 ⟨R2, R1⟩
  rw [plug_append] at R3
  simp only [AFrame.plug] at R3
  rw [rep_mk2, hd] at R3
  obtain ⟨q1, q2, q3, q4⟩ := R3
  simp only at q1 q2
  have hcnt : ∀ x, cnt x (AFrame.plug Ls (.node (a, { d with value := value }) l r)) + (if R.a = x then 1 else 0) ≤ bnd x := by
    intro x
    have h1 := I.cnt x
    have h2 := cnt_plug x Ls (.node (a, { d with value := value }) l r)
    have h3 := cnt_plug x (Ls ++ [R]) (.node (a, { d with value := value }) l r)
    rw [plug_append] at h3
    simp only [AFrame.plug, cnt_mk2, cnt_node] at h1 h2 h3 ⊢
    omega
  have hown : ∀ x, ptr (AFrame.plug Ls (.node (a, { d with value := value }) l r)) = some x → W x := by
    intro x hx
    rcases ptr_plug_mem _ _ hx with ⟨F, hF, rfl⟩ | e
    · exact I.own F (List.mem_append_left _ hF)
    · cases e; exact I.ownA
  have her := erase_plug (.node (a, { d with value := value }) l r) Ls
  rw [wp_load q1]
  have ec : (cell2 R.d true (ptr (AFrame.plug Ls (.node (a, { d with value := value }) l r))) (ptr R.sib)).c1 =
      ptr (AFrame.plug Ls (.node (a, { d with value := value }) l r)) := rfl
  rw [ec]
  simp only [erase_node] at her
  rw [← her]
  generalize hA : AFrame.plug Ls (.node (a, { d with value := value }) l r) = A at q3 hcnt hown ⊢
  cases A with
  | nil =>
    have := congrArg ptr hA
    exfalso
    have h3 := cnt_plug a Ls (.node (a, { d with value := value }) l r)
    rw [hA] at h3; simp at h3; omega
  | node ad xl xr =>
    obtain ⟨x, dx⟩ := ad
    simp only [ptr_node]
    have zx : cnt x xl = 0 ∧ cnt x xr = 0 := by
      have h1 := hcnt x; have := P.one x
      simp only [cnt_node, if_true] at h1; omega
    rw [wp_setRedP q3.1]
    refine ⟨hown x rfl, ?_⟩
    simp only [wp_pure]
    refine ⟨.node (x, dx.col false) xl xr, rfl, ⟨by simp, q3.2.1, rep_put q3.2.2.1 zx.1 _, rep_put q3.2.2.2 zx.2 _⟩, rfl, fun y => ?_⟩
    have := hcnt y
    simp only [cnt_node] at this ⊢; omega

/-! ## The functions -/

theorem insert_start {A : ATree (RD K V)} {a0 : RD K V} (P : Perm W bnd h.next) (hA : Rep h A) (hc : ∀ x, cnt x A ≤ bnd x) (dir : Bool) (hd : a0.red = false) :
    Head W bnd h.next ⟨h.next, a0, true, .nil⟩ [] ⟨h.next, a0, true, .nil⟩ [] A { dir := dir, g := none, p := none, n := some h.next, r := -1 }
      (h.push ⟨a0, none, ptr A⟩) := by
  refine ⟨rfl, rep_push hA _, ⟨by simp [cell2], by simp, trivial, trivial⟩, fun x => ?_, ?_, by simp, rfl, rfl, rfl, ?_⟩
  · have := hc x; have := rep_zero hA x; have := P.fresh x
    simp only [List.nil_append, cntC_cons, cntC_nil, cnt_nil]; grind
  · intro F hF; simp at hF; subst hF; exact (P.fresh _ (Nat.le_refl _)).1
  · intro h; simp [hd] at h

theorem insertP_spec [Inhabited K] [Inhabited V] {cmp : K → K → Int} {f : Nat} {A : ATree (RD K V)} (hA : Rep h A) (h1 : ∀ x, cnt x A ≤ 1)
    (hf : 2 * A.height + 3 ≤ f) {key : K} {value : V} {T : RTree K V} (hT : RB.insert cmp (erase A) key value = some T) (eh : (erase A).height = A.height) :
    wp (fun a => h.next ≤ a) (insertP cmp f (ptr A) key value) (fun p h' => ∃ A', p = ptr A' ∧ Rep h' A' ∧ erase A' = T ∧
      ∀ x, cnt x A' ≤ if h.next ≤ x then 1 else cnt x A) h := by
  cases A with
  | nil =>
    simp only [insertP, ptr_nil, if_true, wp_bind, wp_new, wp_pure]
    simp only [erase_nil, RB.insert, Option.some.injEq] at hT
    refine ⟨.node (h.next, _) .nil .nil, rfl, ⟨by simp; rfl, by simp, trivial, trivial⟩, by simpa using hT, fun x => ?_⟩
    simp only [cnt_node, cnt_nil]; grind
  | node ad l r =>
    have P : Perm (fun a => h.next ≤ a) (fun x => if h.next ≤ x then 1 else cnt x (.node ad l r)) h.next :=
      ⟨fun x => by have := h1 x; grind, fun x hx => ⟨hx, by simp [hx]⟩⟩
    simp only [RB.insert, erase_node, Option.map_eq_some_iff] at hT
    obtain ⟨T', hT, rfl⟩ := hT
    rw [← erase_node, eh] at hT
    have e : (ptr (.node ad l r) = none) = False := by simp
    simp only [insertP, e, if_false, wp_bind, wp_new]
    refine wp_conseq (insLoopP_spec P (R := ⟨h.next, { key := default, value := default, red := false }, true, .nil⟩) rfl _ (by omega)
      (insert_start P hA (fun x => by have := rep_zero hA x; grind) false rfl) (by simp) (by simp) hT) ?_
    rintro s h' E
    exact finish_spec P rfl E

theorem inplaceInsertP_spec [Inhabited K] [Inhabited V] {cmp : K → K → Int} {f : Nat} {A : ATree (RD K V)} (hA : Rep h A) (h1 : ∀ x, cnt x A ≤ 1)
    (hf : 2 * A.height + 3 ≤ f) {key : K} {value : V} {T : RTree K V} (hT : RB.insert cmp (erase A) key value = some T) (eh : (erase A).height = A.height) :
    wp (fun a => 1 ≤ cnt a A ∨ h.next ≤ a) (inplaceInsertP cmp f (ptr A) key value) (fun p h' => ∃ A', p = ptr A' ∧ Rep h' A' ∧ erase A' = T ∧
      ∀ x, cnt x A' ≤ if h.next ≤ x then 1 else cnt x A) h := by
  cases A with
  | nil =>
    simp only [inplaceInsertP, ptr_nil, if_true, wp_bind, wp_new, wp_pure]
    simp only [erase_nil, RB.insert, Option.some.injEq] at hT
    refine ⟨.node (h.next, _) .nil .nil, rfl, ⟨by simp; rfl, by simp, trivial, trivial⟩, by simpa using hT, fun x => ?_⟩
    simp only [cnt_node, cnt_nil]; grind
  | node ad l r =>
    have P : Perm (fun a => 1 ≤ cnt a (.node ad l r) ∨ h.next ≤ a) (fun x => if h.next ≤ x then 1 else cnt x (.node ad l r)) h.next :=
      ⟨fun x => by have := h1 x; grind, fun x hx => ⟨.inr hx, by simp [hx]⟩⟩
    simp only [RB.insert, erase_node, Option.map_eq_some_iff] at hT
    obtain ⟨T', hT, rfl⟩ := hT
    rw [← erase_node, eh] at hT
    have e : (ptr (.node ad l r) = none) = False := by simp
    simp only [inplaceInsertP, e, if_false, wp_bind, wp_new]
    refine wp_conseq (inpLoopP_spec P ?_ (R := ⟨h.next, { key := default, value := default, red := false }, true, .nil⟩) rfl _ (by omega)
      (insert_start P hA (fun x => by have := rep_zero hA x; grind) false rfl) (by simp) hT) ?_
    · intro x hx; grind
    rintro s h' E
    exact finish_spec P rfl E

end Verif.RBHeap
