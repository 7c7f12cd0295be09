import Verif.RBHeap.Insert
import Verif.RB.Balance

/-! # `del` computes the functional deletion -/

namespace Verif.RBHeap
open Verif.Heap Verif.Heap.Prog Verif.Heap.ATree Verif.Heap.AFrame Verif.RB

variable {K V : Type} {W : Nat → Prop} {h : Heap (RD K V)} {bnd : Nat → Nat} {base : Nat}

@[simp] theorem col_col (d : RD K V) (a b : Bool) : (d.col a).col b = d.col b := rfl

/-- The last four assignments of a borrow. -/
theorem wp_recolour {t u v n : Nat} {dt du dv : RD K V} {b : Bool} {u1 u2 v1 v2 : Ptr} {cn : Cell (RD K V)} {g : Nat} {gd : Bool} {dg : RD K V} {gs : Ptr}
    {Q : Unit → Heap (RD K V) → Prop}
    (hg : h.mem g = some (cell2 dg gd (some t) gs))
    (ht : h.mem t = some (cell2 dt b (some u) (some v))) (hu : h.mem u = some (cell2 du b u1 u2)) (hv : h.mem v = some (cell2 dv b v1 v2))
    (hn : h.mem n = some cn)
    (ngn : g ≠ n) (ntu : t ≠ u) (ntv : t ≠ v) (ntn : t ≠ n) (nuv : u ≠ v) (nun : u ≠ n) (nvn : v ≠ n)
    (Wt : W t) (Wu : W u) (Wv : W v) (Wn : W n)
    (hQ : Q () ((((h.put n { cn with d := cn.d.col true }).put t (cell2 (dt.col true) b (some u) (some v))).put u (cell2 (du.col false) b u1 u2)).put v (cell2 (dv.col false) b v1 v2))) :
    wp W (do
      setRedP (some n) true
      let cg ← load (some g)
      setRedP (cg.child gd) true
      let cx ← load (cg.child gd)
      setRedP cx.c0 false
      let cx ← load (cg.child gd)
      setRedP cx.c1 false) Q h := by
  simp only [wp_bind]
  rw [wp_setRedP hn]
  refine ⟨Wn, ?_⟩
  have hg' : (h.put n { cn with d := cn.d.col true }).mem g = some (cell2 dg gd (some t) gs) := by rw [Heap.mem_put, if_neg ngn, hg]
  have ht' : (h.put n { cn with d := cn.d.col true }).mem t = some (cell2 dt b (some u) (some v)) := by rw [Heap.mem_put, if_neg ntn, ht]
  have hu' : (h.put n { cn with d := cn.d.col true }).mem u = some (cell2 du b u1 u2) := by rw [Heap.mem_put, if_neg nun, hu]
  have hv' : (h.put n { cn with d := cn.d.col true }).mem v = some (cell2 dv b v1 v2) := by rw [Heap.mem_put, if_neg nvn, hv]
  generalize h.put n { cn with d := cn.d.col true } = h at *
  rw [wp_load hg']
  simp only [cell2_child]
  rw [wp_setRedP ht', cell2_red]
  refine ⟨Wt, ?_⟩
  rw [wp_load (Heap.mem_put_self _ _ _)]
  have hu'' : (h.put t (cell2 (dt.col true) b (some u) (some v))).mem u = some (cell2 du b u1 u2) := by rw [Heap.mem_put, if_neg (Ne.symm ntu), hu']
  have hv'' : (h.put t (cell2 (dt.col true) b (some u) (some v))).mem v = some (cell2 dv b v1 v2) := by rw [Heap.mem_put, if_neg (Ne.symm ntv), hv']
  have hself := Heap.mem_put_self h t (cell2 (dt.col true) b (some u) (some v))
  generalize h.put t (cell2 (dt.col true) b (some u) (some v)) = h at *
  cases b with
  | false =>
    rw [show (cell2 (dt.col true) false (some u) (some v)).c0 = some u from rfl, wp_setRedP hu'', cell2_red]
    refine ⟨Wu, ?_⟩
    rw [wp_load (by rw [Heap.mem_put, if_neg ntu]; exact hself), show (cell2 (dt.col true) false (some u) (some v)).c1 = some v from rfl,
      wp_setRedP (by rw [Heap.mem_put, if_neg (Ne.symm nuv)]; exact hv''), cell2_red]
    exact ⟨Wv, hQ⟩
  | true =>
    rw [show (cell2 (dt.col true) true (some u) (some v)).c0 = some v from rfl, wp_setRedP hv'', cell2_red]
    refine ⟨Wv, ?_⟩
    rw [wp_load (by rw [Heap.mem_put, if_neg ntv]; exact hself), show (cell2 (dt.col true) true (some u) (some v)).c1 = some u from rfl,
      wp_setRedP (by rw [Heap.mem_put, if_neg nuv]; exact hu''), cell2_red]
    rw [Heap.put_comm _ (Ne.symm nuv)]
    exact ⟨Wu, hQ⟩

/-- Borrowing with a double rotation; `x` is the red near child of the sibling `s`. -/
theorem wp_borrow_double {g p n s x : Nat} {dg dp ds dx : RD K V} {gd pd : Bool} {gs z u v : Ptr} {cn : Cell (RD K V)} {Q : Unit → Heap (RD K V) → Prop}
    (hk : ∀ y, base ≤ y → W y) (hb : base ≤ h.next)
    (hg : h.mem g = some (cell2 dg gd (some p) gs)) (hgs : gs ≠ some p)
    (hp : h.mem p = some (cell2 dp pd (some n) (some s)))
    (hs : h.mem s = some (cell2 ds pd (some x) z)) (hx : h.mem x = some (cell2 dx pd u v)) (hn : h.mem n = some cn) (hred : dx.red = true)
    (ngp : g ≠ p) (ngn : g ≠ n) (ngs : g ≠ s) (npn : p ≠ n) (nps : p ≠ s) (nns : n ≠ s)
    (lg : g < h.next) (lp : p < h.next) (ln : n < h.next) (ls : s < h.next)
    (Wg : W g) (Wp : W p) (Wn : W n) (Ws : W s)
    (hQ : ∀ h', h'.next = h.next + 1 → h'.mem g = some (cell2 dg gd (some h.next) gs) →
      h'.mem h.next = some (cell2 (dx.col true) pd (some p) (some s)) → h'.mem p = some (cell2 (dp.col false) pd (some n) u) →
      h'.mem s = some (cell2 (ds.col false) pd v z) → h'.mem n = some { cn with d := cn.d.col true } →
      (∀ y, y < h.next → y ≠ g → y ≠ p → y ≠ s → y ≠ n → h'.mem y = h.mem y) → Q () h') :
    wp W (borrowP (some g) (some p) (some n) (some s) pd) Q h := by
  have egd : decide ((cell2 dg gd (some p) gs).c1 = some p) = gd := by cases gd <;> simp [cell2, hgs]
  simp only [borrowP, wp_bind, wp_load hg, wp_load hs, egd, cell2_child, wp_isRedP hx, cell2_d, hred, if_true]
  rw [wp_fullCopy hx, wp_setChld (c := cell2 ds pd (some x) z) (by rw [Heap.mem_push, if_neg (by omega), hs]), cell2_setChild]
  refine ⟨Ws, ?_⟩
  have WN : W h.next := hk _ hb
  refine wp_double (a := p) (b := s) (c := h.next) (da := dp) (db := ds) (dc := dx) (dir := !pd) (x := some n) (y := z) (u := v) (v := u)
    ?_ ?_ ?_ nps (by omega) (by omega) Wp Ws WN ?_
  · rw [Heap.mem_put, if_neg nps, Heap.mem_push, if_neg (by omega), hp, cell2_flip]
  · rw [Heap.mem_put_self, cell2_flip]
  · rw [Heap.mem_put, if_neg (by omega), Heap.mem_push_self, cell2_flip]
  · simp only [cell2_flip]
    rw [wp_setChld (c := cell2 dg gd (some p) gs) (by
      rw [Heap.mem_put, if_neg (by omega), Heap.mem_put, if_neg ngp, Heap.mem_put, if_neg ngs, Heap.mem_put, if_neg ngs, Heap.mem_push, if_neg (by omega), hg]), cell2_setChild]
    refine ⟨Wg, ?_⟩
    have := wp_recolour (W := W) (Q := Q) (g := g) (t := h.next) (u := p) (v := s) (n := n) (b := pd) (gd := gd) (dg := dg) (gs := gs) (cn := cn)
      (dt := dx.col false) (du := dp.col true) (u1 := some n) (u2 := u) (dv := ds.col true) (v1 := v) (v2 := z)
      (h := ((((((h.push (cell2 dx pd u v)).put s (cell2 ds pd (some h.next) z)).put s (cell2 (ds.col true) pd v z)).put p (cell2 (dp.col true) pd (some n) u)).put h.next (cell2 (dx.col false) pd (some p) (some s))).put g (cell2 dg gd (some h.next) gs)))
      (by simp) (by simp only [Heap.mem_put, Heap.mem_push]; grind) (by simp only [Heap.mem_put, Heap.mem_push]; grind) (by simp only [Heap.mem_put, Heap.mem_push]; grind)
      (by simp only [Heap.mem_put, Heap.mem_push]; grind) ngn (by omega) (by omega) (by omega) nps npn (Ne.symm nns) WN Wp Ws Wn
      (hQ _ (by simp) (by simp only [Heap.mem_put]; grind) (by simp only [Heap.mem_put, col_col]; grind) (by simp only [Heap.mem_put, col_col]; grind)
        (by simp only [Heap.mem_put, col_col]; grind) (by simp only [Heap.mem_put, Heap.mem_push]; grind) (by intro y; simp only [Heap.mem_put, Heap.mem_push]; grind))
    simp only [wp_bind] at this
    exact this

/-- Borrowing with a single rotation; `x` is the far child of the sibling `s`, the near child `z` is not red. -/
theorem wp_borrow_single {g p n s x : Nat} {dg dp ds dx : RD K V} {gd pd : Bool} {gs u v : Ptr} {zt : ATree (RD K V)} {cn : Cell (RD K V)} {Q : Unit → Heap (RD K V) → Prop}
    (hk : ∀ y, base ≤ y → W y) (hb : base ≤ h.next)
    (hg : h.mem g = some (cell2 dg gd (some p) gs)) (hgs : gs ≠ some p)
    (hp : h.mem p = some (cell2 dp pd (some n) (some s)))
    (hs : h.mem s = some (cell2 ds pd (ptr zt) (some x))) (hx : h.mem x = some (cell2 dx pd u v)) (hn : h.mem n = some cn)
    (hz : Rep h zt) (hred : isRed (erase zt) = false)
    (ngp : g ≠ p) (ngn : g ≠ n) (ngs : g ≠ s) (npn : p ≠ n) (nps : p ≠ s) (nns : n ≠ s)
    (lg : g < h.next) (lp : p < h.next) (ln : n < h.next) (ls : s < h.next)
    (Wg : W g) (Wp : W p) (Wn : W n) (Ws : W s)
    (hQ : ∀ h', h'.next = h.next + 1 → h'.mem g = some (cell2 dg gd (some s) gs) →
      h'.mem h.next = some (cell2 (dx.col false) pd u v) → h'.mem p = some (cell2 (dp.col false) pd (some n) (ptr zt)) →
      h'.mem s = some (cell2 (ds.col true) pd (some p) (some h.next)) → h'.mem n = some { cn with d := cn.d.col true } →
      (∀ y, y < h.next → y ≠ g → y ≠ p → y ≠ s → y ≠ n → h'.mem y = h.mem y) → Q () h') :
    wp W (borrowP (some g) (some p) (some n) (some s) pd) Q h := by
  have egd : decide ((cell2 dg gd (some p) gs).c1 = some p) = gd := by cases gd <;> simp [cell2, hgs]
  simp only [borrowP, wp_bind, wp_load hg, wp_load hs, egd, cell2_child, cell2_child_not]
  rw [wp_isRedP_tree hz, hred]
  simp only [Bool.false_eq_true, if_false, wp_bind]
  rw [wp_fullCopy hx, wp_setChld (c := cell2 ds pd (ptr zt) (some x)) (by rw [Heap.mem_push, if_neg (by omega), hs]), cell2_setChild_not]
  refine ⟨Ws, ?_⟩
  have WN : W h.next := hk _ hb
  refine wp_single (a := p) (b := s) (da := dp) (db := ds) (dir := !pd) (x := some n) (y := some h.next) (z := ptr zt)
    ?_ ?_ nps Wp Ws ?_
  · rw [Heap.mem_put, if_neg nps, Heap.mem_push, if_neg (by omega), hp, cell2_flip]
  · rw [Heap.mem_put_self, cell2_flip]
  · simp only [cell2_flip]
    rw [wp_setChld (c := cell2 dg gd (some p) gs) (by
      rw [Heap.mem_put, if_neg ngs, Heap.mem_put, if_neg ngp, Heap.mem_put, if_neg ngs, Heap.mem_push, if_neg (by omega), hg]), cell2_setChild]
    refine ⟨Wg, ?_⟩
    have := wp_recolour (W := W) (Q := Q) (g := g) (t := s) (u := p) (v := h.next) (n := n) (b := pd) (gd := gd) (dg := dg) (gs := gs) (cn := cn)
      (dt := ds.col false) (du := dp.col true) (u1 := some n) (u2 := ptr zt) (dv := dx) (v1 := u) (v2 := v)
      (h := ((((h.push (cell2 dx pd u v)).put s (cell2 ds pd (ptr zt) (some h.next))).put p (cell2 (dp.col true) pd (some n) (ptr zt))).put s (cell2 (ds.col false) pd (some p) (some h.next))).put g (cell2 dg gd (some s) gs))
      (by simp) (by simp only [Heap.mem_put, Heap.mem_push]; grind) (by simp only [Heap.mem_put, Heap.mem_push]; grind) (by simp only [Heap.mem_put, Heap.mem_push]; grind)
      (by simp only [Heap.mem_put, Heap.mem_push]; grind) ngn (Ne.symm nps) (by omega) (Ne.symm nns) (by omega) npn (by omega) Ws Wp WN Wn
      (hQ _ (by simp) (by simp only [Heap.mem_put]; grind) (by simp only [Heap.mem_put, col_col]; grind) (by simp only [Heap.mem_put, col_col]; grind)
        (by simp only [Heap.mem_put, col_col]; grind) (by simp only [Heap.mem_put, Heap.mem_push]; grind) (by intro y; simp only [Heap.mem_put, Heap.mem_push]; grind))
    simp only [wp_bind] at this
    exact this

/-! ## The step of the loop -/

theorem rep_agree {D : Type} {h h' : Heap D} {t : ATree D} (ht : Rep h t) (S : List Nat) (hn : h.next ≤ h'.next)
    (hm : ∀ y, y < h.next → y ∉ S → h'.mem y = h.mem y) (hz : ∀ s ∈ S, cnt s t = 0) : Rep h' t := by
  refine rep_frame ht hn fun a ha => hm a (rep_lt ht ha) fun hS => ?_
  have := hz a hS; omega

theorem repC_agree {D : Type} {h h' : Heap D} {q : Ptr} {L : List (AFrame D)} (ht : RepC h q L) (S : List Nat) (hn : h.next ≤ h'.next)
    (hm : ∀ y, y < h.next → y ∉ S → h'.mem y = h.mem y) (hz : ∀ s ∈ S, cntC s L = 0) : RepC h' q L := by
  refine repC_frame ht hn fun a ha => hm a (repC_lt ht ha) fun hS => ?_
  have := hz a hS; omega

/-- A frame and whether its node was found equal to the key. -/
abbrev TFrame (K V : Type) := AFrame (RD K V) × Bool

def erT (F : TFrame K V) : Frame K V := { d := F.1.d, dir := F.1.dir, sib := erase F.1.sib, tgt := F.2 }

/-- The frames with the fake root at the end. -/
def fr (Ls : List (TFrame K V)) (R : AFrame (RD K V)) : List (AFrame (RD K V)) := Ls.map Prod.fst ++ [R]

@[simp] theorem fr_nil (R : AFrame (RD K V)) : fr [] R = [R] := rfl
@[simp] theorem fr_cons (F : TFrame K V) (Ls : List (TFrame K V)) (R : AFrame (RD K V)) : fr (F :: Ls) R = F.1 :: fr Ls R := rfl

/-- The node `t` points to: the innermost one found equal. -/
def tgtPtr : List (TFrame K V) → Ptr
  | [] => none
  | F :: Ls => if F.2 then some F.1.a else tgtPtr Ls

/-- State of the deletion loop without the loop variables. -/
structure Zip (W : Nat → Prop) (bnd : Nat → Nat) (base : Nat) (R : AFrame (RD K V)) (Ls : List (TFrame K V)) (x : ATree (RD K V)) (h : Heap (RD K V)) : Prop where
  rep : Rep h x
  repC : RepC h (ptr x) (fr Ls R)
  cnt : ∀ y, ATree.cnt y x + cntC y (fr Ls R) ≤ bnd y
  own : ∀ F ∈ fr Ls R, W F.a
  base : base ≤ h.next

/-- What the step leaves. -/
def DFixed (W : Nat → Prop) (bnd : Nat → Nat) (base : Nat) (R f : AFrame (RD K V)) (tg : Bool) (ctx : List (Frame K V)) (t : Ptr) (x : ATree (RD K V))
    (p : Ptr) (h : Heap (RD K V)) : Prop :=
  ∃ f' Lr, f'.a = f.a ∧ f'.dir = f.dir ∧ p = top (fr Lr R) ∧ Zip W bnd base R ((f', tg) :: Lr) x h ∧ ((f', tg) :: Lr).map erT = ctx ∧ tgtPtr ((f', tg) :: Lr) = t

theorem ptr_ne {t : ATree (RD K V)} {a : Nat} (hz : cnt a t = 0) : ptr t ≠ some a := by
  intro h
  cases t with
  | nil => cases h
  | node ad l r =>
    simp only [ptr_node, Option.some.injEq] at h
    simp [h] at hz

theorem wp_noRedChild {a : Nat} {d : RD K V} {l r : ATree (RD K V)} {Q : Bool → Heap (RD K V) → Prop} (ha : h.mem a = some ⟨d, ptr l, ptr r⟩) (hl : Rep h l) (hr : Rep h r) :
    wp W (noRedChild (some a)) Q h ↔ Q (!isRed (erase l) && !isRed (erase r)) h := by
  simp only [noRedChild, wp_bind, wp_load ha]
  rw [wp_isRedP_tree hl, wp_load ha]
  rw [wp_andP_read (y := !isRed (erase r))]
  simp only [wp_bind, wp_pure]
  rw [wp_isRedP_tree hr]

theorem delFix_sib {ctx : List (Frame K V)} {f : Frame K V} {x : RTree K V} (h1 : (!f.d.red && !isRed x) = true) (h2 : isRed f.sib = false) :
    delFix ctx f x = delFix.delSib ctx f := by
  simp only [delFix, h1, if_true]
  cases hs : f.sib with
  | nil => rfl
  | node yd yl yr =>
    rw [hs] at h2
    simp only [isRed] at h2
    simp [h2]

/-- Borrowing with a double rotation, on frames. -/
theorem borrow_double (P : Perm W bnd base) {f F0 F1 : AFrame (RD K V)} {L2 : List (AFrame (RD K V))} {x far xl xr : ATree (RD K V)} {s xa : Nat} {sd xd : RD K V}
    (hb : base ≤ h.next) (hx : Rep h x) (m_n : h.mem f.a = some (cell2 f.d f.dir (ptr x) (ptr f.sib))) (l_n : f.a < h.next) (r_y : Rep h f.sib)
    (m_p : h.mem F0.a = some (cell2 F0.d F0.dir (some f.a) (some s))) (l_p : F0.a < h.next)
    (m_s : h.mem s = some (cell2 sd F0.dir (some xa) (ptr far))) (l_s : s < h.next)
    (r_near : Rep h (.node (xa, xd) xl xr)) (r_far : Rep h far) (hL : RepC h (some F0.a) (F1 :: L2))
    (hc : ∀ y, cnt y x + (if f.a = y then 1 else 0) + cnt y f.sib + (if F0.a = y then 1 else 0) + (if s = y then 1 else 0) + cnt y (.node (xa, xd) xl xr) + cnt y far +
      (if F1.a = y then 1 else 0) + cnt y F1.sib + cntC y L2 ≤ bnd y)
    (Wn : W f.a) (Wp : W F0.a) (Ws : W s) (W1 : W F1.a) (hred : xd.red = true) :
    wp W (borrowP (some F1.a) (some F0.a) (some f.a) (some s) F0.dir) (fun _ h' => base ≤ h'.next ∧ ∃ N, W N ∧ Rep h' x ∧
      RepC h' (ptr x) ({ f with d := f.d.col true } :: { F0 with d := F0.d.col false, sib := (BTree.node (xa, xd) xl xr).child F0.dir } ::
        ⟨N, xd.col true, F0.dir, .mk2 (s, sd.col false) F0.dir ((BTree.node (xa, xd) xl xr).child (!F0.dir)) far⟩ :: F1 :: L2) ∧
      ∀ y, cnt y x + cntC y ({ f with d := f.d.col true } :: { F0 with d := F0.d.col false, sib := (BTree.node (xa, xd) xl xr).child F0.dir } ::
        ⟨N, xd.col true, F0.dir, .mk2 (s, sd.col false) F0.dir ((BTree.node (xa, xd) xl xr).child (!F0.dir)) far⟩ :: F1 :: L2) ≤ bnd y) h := by
  obtain ⟨k1, k2, k3, k4⟩ := hL
  have hone : ∀ y, bnd y ≤ 1 := P.one
  have dn := hc f.a; have dp := hc F0.a; have ds := hc s; have d1 := hc F1.a
  have en := hone f.a; have ep := hone F0.a; have es := hone s; have e1 := hone F1.a
  have np : f.a ≠ F0.a := by grind
  have ns : f.a ≠ s := by grind
  have n1 : f.a ≠ F1.a := by grind
  have ps : F0.a ≠ s := by grind
  have p1 : F0.a ≠ F1.a := by grind
  have s1 : s ≠ F1.a := by grind
  have zz : ∀ y, y = F1.a ∨ y = F0.a ∨ y = s ∨ y = f.a → cnt y x = 0 ∧ cnt y f.sib = 0 ∧ cnt y (.node (xa, xd) xl xr) = 0 ∧ cnt y far = 0 ∧ cnt y F1.sib = 0 ∧ cntC y L2 = 0 := by
    rintro y (rfl | rfl | rfl | rfl) <;> grind
  have m_x := r_near.1
  simp only at m_x
  rw [node_cell2 xa xd xl xr F0.dir] at m_x
  have hk : ∀ y, base ≤ y → W y := fun y hy => (P.fresh y hy).1
  refine wp_borrow_double (base := base) hk hb k1 (ptr_ne (zz _ (by simp)).2.2.2.2.1) m_p m_s m_x m_n hred (Ne.symm p1) (Ne.symm n1) (Ne.symm s1) (Ne.symm np) ps ns
    k2 l_p l_n l_s W1 Wp Wn Ws ?_
  intro h' e1 a1 a2 a3 a4 a5 a6
  have ag : ∀ y, y < h.next → y ∉ [F1.a, F0.a, s, f.a] → h'.mem y = h.mem y := by
    intro y hy hy'; simp only [List.mem_cons, List.not_mem_nil, or_false, not_or] at hy'; exact a6 y hy hy'.1 hy'.2.1 hy'.2.2.1 hy'.2.2.2
  have hz : ∀ t : ATree (RD K V), (∀ y, y = F1.a ∨ y = F0.a ∨ y = s ∨ y = f.a → cnt y t = 0) → ∀ y ∈ [F1.a, F0.a, s, f.a], cnt y t = 0 := by
    intro t q y hy; exact q y (by simpa using hy)
  have hxz : ∀ b y, cnt y (BTree.node (xa, xd) xl xr) = 0 → cnt y ((BTree.node (xa, xd) xl xr).child b) = 0 := by
    intro b y q; rw [cnt_child y _ _ _ b] at q; omega
  have rch : ∀ b, Rep h' ((BTree.node (xa, xd) xl xr).child b) := fun b =>
    rep_agree (rep_child r_near b) _ (by omega) ag (hz _ fun y hy => hxz b y (zz y hy).2.2.1)
  have rx := rep_agree hx _ (by omega) ag (hz _ fun y hy => (zz y hy).1)
  have ry := rep_agree r_y _ (by omega) ag (hz _ fun y hy => (zz y hy).2.1)
  have rf := rep_agree r_far _ (by omega) ag (hz _ fun y hy => (zz y hy).2.2.2.1)
  have rs := rep_agree k3 _ (by omega) ag (hz _ fun y hy => (zz y hy).2.2.2.2.1)
  have rL : RepC h' (some F1.a) L2 := repC_agree k4 _ (by omega) ag (fun y hy => (zz y (by simpa using hy)).2.2.2.2.2)
  refine ⟨by omega, h.next, hk _ hb, rx, ?_, ?_⟩
  · refine ⟨by rw [a5, cell2_red], by simp only; omega, ry, a3, by simp only; omega, rch _, by rw [a2, ptr_mk2], by simp only; omega, ?_, a1, by omega, rs, rL⟩
    rw [rep_mk2]
    exact ⟨a4, by simp only; omega, rch _, rf⟩
  · intro y
    have c := hc y
    have cx := cnt_child y (xa, xd) xl xr F0.dir
    have f1 := rep_zero hx y; have f2 := rep_zero r_y y; have f3 := rep_zero r_far y; have f4 := rep_zero r_near y; have f5 := rep_zero k3 y; have f6 := repC_zero k4 y
    have fp := P.fresh y
    simp only [cntC_cons, cnt_mk2]
    clear zz hxz rch hz ag a6 hc
    grind

/-- Borrowing with a single rotation, on frames. -/
theorem borrow_single (P : Perm W bnd base) {f F0 F1 : AFrame (RD K V)} {L2 : List (AFrame (RD K V))} {x near xl xr : ATree (RD K V)} {s xa : Nat} {sd xd : RD K V}
    (hb : base ≤ h.next) (hx : Rep h x) (m_n : h.mem f.a = some (cell2 f.d f.dir (ptr x) (ptr f.sib))) (l_n : f.a < h.next) (r_y : Rep h f.sib)
    (m_p : h.mem F0.a = some (cell2 F0.d F0.dir (some f.a) (some s))) (l_p : F0.a < h.next)
    (m_s : h.mem s = some (cell2 sd F0.dir (ptr near) (some xa))) (l_s : s < h.next)
    (r_far : Rep h (.node (xa, xd) xl xr)) (r_near : Rep h near) (hL : RepC h (some F0.a) (F1 :: L2))
    (hc : ∀ y, cnt y x + (if f.a = y then 1 else 0) + cnt y f.sib + (if F0.a = y then 1 else 0) + (if s = y then 1 else 0) + cnt y near + cnt y (.node (xa, xd) xl xr) +
      (if F1.a = y then 1 else 0) + cnt y F1.sib + cntC y L2 ≤ bnd y)
    (Wn : W f.a) (Wp : W F0.a) (Ws : W s) (W1 : W F1.a) (hred : isRed (erase near) = false) :
    wp W (borrowP (some F1.a) (some F0.a) (some f.a) (some s) F0.dir) (fun _ h' => base ≤ h'.next ∧ ∃ N, W N ∧ Rep h' x ∧
      RepC h' (ptr x) ({ f with d := f.d.col true } :: { F0 with d := F0.d.col false, sib := near } ::
        ⟨s, sd.col true, F0.dir, .node (N, xd.col false) xl xr⟩ :: F1 :: L2) ∧
      ∀ y, cnt y x + cntC y ({ f with d := f.d.col true } :: { F0 with d := F0.d.col false, sib := near } ::
        ⟨s, sd.col true, F0.dir, .node (N, xd.col false) xl xr⟩ :: F1 :: L2) ≤ bnd y) h := by
  obtain ⟨k1, k2, k3, k4⟩ := hL
  have hone : ∀ y, bnd y ≤ 1 := P.one
  have dn := hc f.a; have dp := hc F0.a; have ds := hc s; have d1 := hc F1.a
  have en := hone f.a; have ep := hone F0.a; have es := hone s; have e1 := hone F1.a
  have np : f.a ≠ F0.a := by grind
  have ns : f.a ≠ s := by grind
  have n1 : f.a ≠ F1.a := by grind
  have ps : F0.a ≠ s := by grind
  have p1 : F0.a ≠ F1.a := by grind
  have s1 : s ≠ F1.a := by grind
  have zz : ∀ y, y = F1.a ∨ y = F0.a ∨ y = s ∨ y = f.a → cnt y x = 0 ∧ cnt y f.sib = 0 ∧ cnt y (.node (xa, xd) xl xr) = 0 ∧ cnt y near = 0 ∧ cnt y F1.sib = 0 ∧ cntC y L2 = 0 := by
    rintro y (rfl | rfl | rfl | rfl) <;> grind
  have m_x := r_far.1
  simp only at m_x
  rw [node_cell2 xa xd xl xr F0.dir] at m_x
  have hk : ∀ y, base ≤ y → W y := fun y hy => (P.fresh y hy).1
  refine wp_borrow_single (base := base) hk hb k1 (ptr_ne (zz _ (by simp)).2.2.2.2.1) m_p m_s m_x m_n r_near hred (Ne.symm p1) (Ne.symm n1) (Ne.symm s1) (Ne.symm np) ps ns
    k2 l_p l_n l_s W1 Wp Wn Ws ?_
  intro h' e1 a1 a2 a3 a4 a5 a6
  have ag : ∀ y, y < h.next → y ∉ [F1.a, F0.a, s, f.a] → h'.mem y = h.mem y := by
    intro y hy hy'; simp only [List.mem_cons, List.not_mem_nil, or_false, not_or] at hy'; exact a6 y hy hy'.1 hy'.2.1 hy'.2.2.1 hy'.2.2.2
  have hz : ∀ t : ATree (RD K V), (∀ y, y = F1.a ∨ y = F0.a ∨ y = s ∨ y = f.a → cnt y t = 0) → ∀ y ∈ [F1.a, F0.a, s, f.a], cnt y t = 0 := by
    intro t q y hy; exact q y (by simpa using hy)
  have hxz : ∀ b y, cnt y (BTree.node (xa, xd) xl xr) = 0 → cnt y ((BTree.node (xa, xd) xl xr).child b) = 0 := by
    intro b y q; rw [cnt_child y _ _ _ b] at q; omega
  have rch : ∀ b, Rep h' ((BTree.node (xa, xd) xl xr).child b) := fun b =>
    rep_agree (rep_child r_far b) _ (by omega) ag (hz _ fun y hy => hxz b y (zz y hy).2.2.1)
  have rx := rep_agree hx _ (by omega) ag (hz _ fun y hy => (zz y hy).1)
  have ry := rep_agree r_y _ (by omega) ag (hz _ fun y hy => (zz y hy).2.1)
  have rf := rep_agree r_near _ (by omega) ag (hz _ fun y hy => (zz y hy).2.2.2.1)
  have rs := rep_agree k3 _ (by omega) ag (hz _ fun y hy => (zz y hy).2.2.2.2.1)
  have rL : RepC h' (some F1.a) L2 := repC_agree k4 _ (by omega) ag (fun y hy => (zz y (by simpa using hy)).2.2.2.2.2)
  refine ⟨by omega, h.next, hk _ hb, rx, ?_, ?_⟩
  · refine ⟨by rw [a5, cell2_red], by simp only; omega, ry, a3, by simp only; omega, rf, a4, by simp only; omega, ⟨?_, by simp only; omega, rch false, rch true⟩, a1, by omega, rs, rL⟩
    rw [a2, node_cell2 h.next (xd.col false) xl xr F0.dir]
    cases F0.dir <;> rfl
  · intro y
    have c := hc y
    have f1 := rep_zero hx y; have f2 := rep_zero r_y y; have f3 := rep_zero r_near y; have f4 := rep_zero r_far y; have f5 := rep_zero k3 y; have f6 := repC_zero k4 y
    have fp := P.fresh y
    simp only [cntC_cons, cnt_node] at c f4 ⊢
    clear zz hxz rch hz ag a6 hc
    grind

theorem borrowP_spec (P : Perm W bnd base) {R f F0 F1 : AFrame (RD K V)} {tg tF : Bool} {Lr : List (TFrame K V)} {L2 : List (AFrame (RD K V))} {x sl sr : ATree (RD K V)}
    {s : Nat} {sd : RD K V} (Z : Zip W bnd base R ((f, tg) :: (F0, tF) :: Lr) x h) (hs : F0.sib = .node (s, sd) sl sr) (Ws : W s) (e2 : fr Lr R = F1 :: L2)
    (ec : (!isRed (erase sl) && !isRed (erase sr)) = false) :
    wp W (borrowP (some F1.a) (some F0.a) (some f.a) (some s) F0.dir) (fun _ h' =>
      DFixed W bnd base R f tg (delFix.delSib (((F0, tF) :: Lr).map erT) (erT (f, tg))) (tgtPtr ((f, tg) :: (F0, tF) :: Lr)) x (some F0.a) h') h := by
  obtain ⟨hx, hL, hc, own, hb⟩ := Z
  simp only [fr_cons] at hL hc own
  obtain ⟨n1, n2, n3, p1, p2, p3, g4⟩ := hL
  have Wp : W F0.a := own _ (by simp)
  have Wn : W f.a := own _ (by simp)
  have W1 : W F1.a := own _ (by rw [e2]; simp)
  have cown : ∀ G ∈ fr Lr R, W G.a := fun G hG => own _ (by simp [hG])
  rw [hs] at p1 p3
  rw [e2] at g4
  have m_s2 : h.mem s = some (cell2 sd F0.dir (ptr ((BTree.node (s, sd) sl sr).child F0.dir)) (ptr ((BTree.node (s, sd) sl sr).child (!F0.dir)))) := by
    have := p3.1
    simp only at this
    rw [this]; exact congrArg some (node_cell2 s sd sl sr F0.dir)
  have l_s : s < h.next := p3.2.1
  have r_near : Rep h ((BTree.node (s, sd) sl sr).child F0.dir) := rep_child p3 _
  have r_far : Rep h ((BTree.node (s, sd) sl sr).child (!F0.dir)) := rep_child p3 _
  have e_near := erase_child (.node (s, sd) sl sr) F0.dir
  have e_far := erase_child (.node (s, sd) sl sr) (!F0.dir)
  have ec' : (!isRed (erase ((BTree.node (s, sd) sl sr).child F0.dir)) && !isRed (erase ((BTree.node (s, sd) sl sr).child (!F0.dir)))) = false := by
    rw [← ec]; cases F0.dir <;> simp [Bool.and_comm]
  have ecs := fun y => cnt_child y (s, sd) sl sr F0.dir
  have efun : delFix.delSib (List.map erT ((F0, tF) :: Lr)) (erT (f, tg)) =
      match (erase ((BTree.node (s, sd) sl sr).child F0.dir)) with
      | .node xd xl xr =>
        if xd.red then
          { erT (f, tg) with d := f.d.col true } :: { erT (F0, tF) with d := F0.d.col false, sib := (BTree.node xd xl xr).child F0.dir } ::
          { d := xd.col true, dir := F0.dir, sib := .mk2 (sd.col false) F0.dir ((BTree.node xd xl xr).child (!F0.dir)) (erase ((BTree.node (s, sd) sl sr).child (!F0.dir))) } :: Lr.map erT
        else delFix.single (erT (F0, tF)) (erT (f, tg)) (Lr.map erT) sd (erase (.node (s, sd) sl sr))
      | .nil => delFix.single (erT (F0, tF)) (erT (f, tg)) (Lr.map erT) sd (erase (.node (s, sd) sl sr)) := by
    simp only [List.map_cons, erT, delFix.delSib, hs, erase_node, ec, Bool.false_eq_true, if_false]
    rw [e_near, e_far, erase_node]
    simp only
    cases (BTree.node sd (erase sl) (erase sr)).child F0.dir <;> rfl
  have hc : ∀ y, cnt y x + (if f.a = y then 1 else 0) + cnt y f.sib + (if F0.a = y then 1 else 0) + (if s = y then 1 else 0) +
      cnt y ((BTree.node (s, sd) sl sr).child F0.dir) + cnt y ((BTree.node (s, sd) sl sr).child (!F0.dir)) + (if F1.a = y then 1 else 0) + cnt y F1.sib + cntC y L2 ≤ bnd y := by
    intro y; have c := hc y; have d := ecs y; rw [e2] at c; simp only [cntC_cons, hs] at c; simp only at d; omega
  generalize hnear : (BTree.node (s, sd) sl sr).child F0.dir = near at *
  generalize hfar : (BTree.node (s, sd) sl sr).child (!F0.dir) = far at *
  by_cases en : isRed (erase near) = true
  · cases near with
    | nil => simp [isRed] at en
    | node xad xl xr =>
    obtain ⟨xa, xd⟩ := xad
    refine wp_conseq (borrow_double P hb hx n1 n2 n3 p1 p2 m_s2 l_s r_near r_far g4 hc Wn Wp Ws W1 en) ?_
    rintro _ h' ⟨b1, N, b2, b3, b4, b5⟩
    refine ⟨{ f with d := f.d.col true }, ({ F0 with d := F0.d.col false, sib := (BTree.node (xa, xd) xl xr).child F0.dir }, tF) ::
      (⟨N, xd.col true, F0.dir, .mk2 (s, sd.col false) F0.dir ((BTree.node (xa, xd) xl xr).child (!F0.dir)) far⟩, false) :: Lr,
      rfl, rfl, rfl, ⟨b3, by rw [← e2] at b4; exact b4, by rw [← e2] at b5; exact b5, ?_, b1⟩, ?_, by simp [tgtPtr]⟩
    · intro G hG
      simp only [fr_cons, List.mem_cons] at hG
      rcases hG with rfl | rfl | rfl | hG
      · exact Wn
      · exact Wp
      · exact b2
      · exact cown _ hG
    · rw [efun]
      simp only [erase_node, isRed] at en ⊢
      simp only [en, if_true, List.map_cons, erT, erase_mk2, erase_child, erase_node]
  · simp only [Bool.not_eq_true] at en
    cases far with
    | nil => rw [en] at ec'; simp [isRed] at ec'
    | node xad xl xr =>
    obtain ⟨xa, xd⟩ := xad
    refine wp_conseq (borrow_single P hb hx n1 n2 n3 p1 p2 m_s2 l_s r_far r_near g4 hc Wn Wp Ws W1 en) ?_
    rintro _ h' ⟨b1, N, b2, b3, b4, b5⟩
    refine ⟨{ f with d := f.d.col true }, ({ F0 with d := F0.d.col false, sib := near }, tF) ::
      (⟨s, sd.col true, F0.dir, .node (N, xd.col false) xl xr⟩, false) :: Lr,
      rfl, rfl, rfl, ⟨b3, by rw [← e2] at b4; exact b4, by rw [← e2] at b5; exact b5, ?_, b1⟩, ?_, by simp [tgtPtr]⟩
    · intro G hG
      simp only [fr_cons, List.mem_cons] at hG
      rcases hG with rfl | rfl | rfl | hG
      · exact Wn
      · exact Wp
      · exact Ws
      · exact cown _ hG
    · rw [efun]
      have es : delFix.single (erT (F0, tF)) (erT (f, tg)) (Lr.map erT) sd (erase (.node (s, sd) sl sr)) =
          { erT (f, tg) with d := f.d.col true } :: { erT (F0, tF) with d := F0.d.col false, sib := erase near } ::
          { d := sd.col true, dir := F0.dir, sib := .node (xd.col false) (erase xl) (erase xr) } :: Lr.map erT := by
        simp only [delFix.single, erT]
        rw [← e_near, ← e_far]; rfl
      rw [es]
      cases near with
      | nil => simp [erT]
      | node nad nl nr =>
        simp only [erase_node, isRed] at en
        simp [erT, en]

theorem siblingP_spec (P : Perm W bnd base) {R f F : AFrame (RD K V)} {tg : Bool} {Ls : List (TFrame K V)} {L : List (AFrame (RD K V))} {x : ATree (RD K V)}
    (hRs : R.sib = .nil) (Z : Zip W bnd base R ((f, tg) :: Ls) x h) (eL : fr Ls R = F :: L) :
    wp W (siblingP (top L) (some F.a) (some f.a) F.dir) (fun _ h' =>
      DFixed W bnd base R f tg (delFix.delSib (Ls.map erT) (erT (f, tg))) (tgtPtr ((f, tg) :: Ls)) x (some F.a) h') h := by
  have Z0 := Z
  obtain ⟨hx, hL, hc, own, hb⟩ := Z
  simp only [fr_cons, eL] at hL hc own
  obtain ⟨n1, n2, n3, p1, p2, p3, g4⟩ := hL
  simp only [siblingP, wp_bind, wp_load p1, cell2_child_not]
  cases hs : F.sib with
  | nil =>
    simp only [ptr_nil, ne_eq, not_true_eq_false, if_false, wp_pure]
    refine ⟨f, Ls, rfl, rfl, by rw [eL]; rfl, Z0, ?_, rfl⟩
    cases Ls with
    | nil => rfl
    | cons F0 Ls =>
      simp only [fr_cons, List.cons.injEq] at eL
      obtain ⟨rfl, _⟩ := eL
      simp [delFix.delSib, erT, hs]
  | node sad sl sr =>
    obtain ⟨sa, sd⟩ := sad
    cases Ls with
    | nil =>
      simp only [fr_nil, List.cons.injEq] at eL
      rw [← eL.1, hRs] at hs; cases hs
    | cons F0 Lr =>
    obtain ⟨F0, tF⟩ := F0
    simp only [fr_cons, List.cons.injEq] at eL
    obtain ⟨rfl, rfl⟩ := eL
    have Wp : W F0.a := own _ (by simp)
    have Wn : W f.a := own _ (by simp)
    have cn := hc f.a; have cp := hc F0.a
    have on := P.one f.a; have op := P.one F0.a
    simp only [cntC_cons, hs, cnt_node] at cn cp
    have npn : F0.a ≠ f.a := by grind
    rw [hs] at p1 p3
    obtain ⟨s1, s2, hsl, hsr⟩ := p3
    simp only at s1 s2
    have zn : cnt f.a x = 0 ∧ cnt f.a f.sib = 0 ∧ cnt f.a sl = 0 ∧ cnt f.a sr = 0 ∧ cntC f.a (fr Lr R) = 0 := by grind
    have zp : cnt F0.a x = 0 ∧ cnt F0.a f.sib = 0 ∧ cnt F0.a sl = 0 ∧ cnt F0.a sr = 0 ∧ cntC F0.a (fr Lr R) = 0 := by grind
    simp only [ptr_node, ne_eq, reduceCtorEq, not_false_eq_true, if_true, wp_bind]
    rw [wp_fullCopy s1, wp_setChld (c := cell2 F0.d F0.dir (some f.a) (some sa)) (by rw [Heap.mem_push, if_neg (by omega)]; exact p1), cell2_setChild_not]
    refine ⟨Wp, ?_⟩
    have WN : W h.next := (P.fresh _ hb).1
    -- memory with the copied sibling
    generalize hh1 : (h.push ⟨sd, ptr sl, ptr sr⟩).put F0.a (cell2 F0.d F0.dir (some f.a) (some h.next)) = h1
    have nx : h1.next = h.next + 1 := by subst hh1; rfl
    have ag : ∀ y, y < h.next → y ∉ [F0.a] → h1.mem y = h.mem y := by
      subst hh1; intro y hy hy'; simp only [Heap.mem_put, Heap.mem_push]; grind
    have m_p : h1.mem F0.a = some (cell2 F0.d F0.dir (some f.a) (some h.next)) := by subst hh1; simp
    have m_s : h1.mem h.next = some ⟨sd, ptr sl, ptr sr⟩ := by subst hh1; simp only [Heap.mem_put, Heap.mem_push]; grind
    have m_n : h1.mem f.a = some (cell2 f.d f.dir (ptr x) (ptr f.sib)) := by rw [ag _ n2 (by simp; exact Ne.symm npn)]; exact n1
    have r_x : Rep h1 x := rep_agree hx _ (by omega) ag (by simp [zp])
    have r_y : Rep h1 f.sib := rep_agree n3 _ (by omega) ag (by simp [zp])
    have r_sl : Rep h1 sl := rep_agree hsl _ (by omega) ag (by simp [zp])
    have r_sr : Rep h1 sr := rep_agree hsr _ (by omega) ag (by simp [zp])
    have r_L : RepC h1 (some F0.a) (fr Lr R) := repC_agree g4 _ (by omega) ag (by simp [zp])
    have fz : ∀ y, h.next ≤ y → cnt y x = 0 ∧ cnt y f.sib = 0 ∧ cnt y sl = 0 ∧ cnt y sr = 0 ∧ cntC y (fr Lr R) = 0 := fun y hy =>
      ⟨rep_zero hx y hy, rep_zero n3 y hy, rep_zero hsl y hy, rep_zero hsr y hy, repC_zero g4 y hy⟩
    have Z1 : Zip W bnd base R ((f, tg) :: ({ F0 with sib := .node (h.next, sd) sl sr }, tF) :: Lr) x h1 := by
      refine ⟨r_x, ⟨m_n, by simp only; omega, r_y, m_p, by simp only; omega, ⟨m_s, by simp only; omega, r_sl, r_sr⟩, r_L⟩, ?_, ?_, by omega⟩
      · intro y
        have c := hc y; have := fz y; have := P.fresh y
        simp only [fr_cons, cntC_cons, cnt_node, hs] at c ⊢
        grind
      · intro G hG
        simp only [fr_cons, List.mem_cons] at hG
        rcases hG with rfl | rfl | hG
        · exact Wn
        · exact Wp
        · exact own _ (by simp [hG])
    have eT : erT (({ F0 with sib := .node (h.next, sd) sl sr }, tF) : TFrame K V) = erT (F0, tF) := by simp [erT, hs]
    simp only [wp_noRedChild m_s r_sl r_sr]
    cases ec : !isRed (erase sl) && !isRed (erase sr) with
    | true =>
      simp only [if_true, wp_bind]
      rw [wp_setRedP m_p]
      refine ⟨Wp, ?_⟩
      rw [wp_setRedP (c := cell2 f.d f.dir (ptr x) (ptr f.sib)) (by rw [Heap.mem_put, if_neg (Ne.symm npn)]; exact m_n)]
      refine ⟨Wn, ?_⟩
      rw [wp_setRedP (c := ⟨sd, ptr sl, ptr sr⟩) (by rw [Heap.mem_put, if_neg (by omega), Heap.mem_put, if_neg (by omega)]; exact m_s)]
      refine ⟨WN, ?_⟩
      simp only [cell2_red]
      have ag2 : ∀ y, y < h1.next → y ∉ [F0.a, f.a, h.next] → (((h1.put F0.a (cell2 (F0.d.col false) F0.dir (some f.a) (some h.next))).put f.a (cell2 (f.d.col true) f.dir (ptr x) (ptr f.sib))).put h.next
          ⟨sd.col true, ptr sl, ptr sr⟩).mem y = h1.mem y := by
        intro y hy hy'; simp only [Heap.mem_put]; grind
      have fN := fz h.next (Nat.le_refl _)
      have hz : ∀ (t : ATree (RD K V)), cnt F0.a t = 0 → cnt f.a t = 0 → cnt h.next t = 0 → ∀ s ∈ [F0.a, f.a, h.next], cnt s t = 0 := by
        intro t q1 q2 q3; simp [q1, q2, q3]
      refine ⟨{ f with d := f.d.col true }, ({ F0 with d := F0.d.col false, sib := .node (h.next, sd.col true) sl sr }, tF) :: Lr, rfl, rfl, rfl, ⟨?_, ?_, ?_, ?_, ?_⟩, ?_, ?_⟩
      · exact rep_agree r_x _ (by simp) ag2 (hz _ zp.1 zn.1 fN.1)
      · refine ⟨?_, by simp [nx]; omega, rep_agree r_y _ (by simp) ag2 (hz _ zp.2.1 zn.2.1 fN.2.1), ?_, by simp [nx]; omega, ⟨?_, by simp [nx], ?_, ?_⟩, ?_⟩
        · simp only [Heap.mem_put]; grind
        · simp only [Heap.mem_put, ptr_node]; grind
        · simp only [Heap.mem_put]; grind
        · exact rep_agree r_sl _ (by simp) ag2 (hz _ zp.2.2.1 zn.2.2.1 fN.2.2.1)
        · exact rep_agree r_sr _ (by simp) ag2 (hz _ zp.2.2.2.1 zn.2.2.2.1 fN.2.2.2.1)
        · exact repC_agree r_L _ (by simp) ag2 (show ∀ s ∈ [F0.a, f.a, h.next], cntC s (fr Lr R) = 0 by simp [zp, zn, fN])
      · intro y
        have c := Z1.cnt y
        simp only [fr_cons, cntC_cons, cnt_node] at c ⊢
        exact c
      · intro G hG
        simp only [fr_cons, List.mem_cons] at hG
        rcases hG with rfl | rfl | hG
        · exact Wn
        · exact Wp
        · exact own _ (by simp [hG])
      · simp [nx]; omega
      · simp only [List.map_cons, erT, delFix.delSib, hs, erase_node, ec, if_true]
      · simp [tgtPtr]
    | false =>
      simp only [Bool.false_eq_true, if_false]
      obtain ⟨F1, L2, e2⟩ : ∃ F1 L2, fr Lr R = F1 :: L2 := by cases Lr <;> simp
      rw [e2, top_cons]
      have := borrowP_spec P Z1 rfl WN e2 ec
      simp only [List.map_cons, eT] at this
      refine wp_conseq this ?_
      intro _ h' D
      simpa only [List.map_cons, tgtPtr] using D

theorem delFixP_spec (P : Perm W bnd base) {R f F : AFrame (RD K V)} {tg : Bool} {Ls : List (TFrame K V)} {L : List (AFrame (RD K V))} {x : ATree (RD K V)}
    (hRs : R.sib = .nil) (Z : Zip W bnd base R ((f, tg) :: Ls) x h) (eL : fr Ls R = F :: L) :
    wp W (delFixP (top L) (some F.a) (some f.a) F.dir f.dir) (fun p h' =>
      DFixed W bnd base R f tg (delFix (Ls.map erT) (erT (f, tg)) (erase x)) (tgtPtr ((f, tg) :: Ls)) x p h') h := by
  have Z0 := Z
  obtain ⟨hx, hL, hc, own, hb⟩ := Z
  simp only [fr_cons, eL] at hL hc own
  obtain ⟨n1, n2, n3, p1, p2, p3, g4⟩ := hL
  simp only [delFixP, wp_bind, wp_load n1, cell2_child, cell2_child_not, cell2_d]
  rw [wp_andP_read (y := !isRed (erase x)) (by simp only [wp_bind, wp_pure]; rw [wp_isRedP_tree hx])]
  cases ec : !f.d.red && !isRed (erase x) with
  | false =>
    simp only [Bool.false_eq_true, if_false, wp_pure]
    exact ⟨f, Ls, rfl, rfl, by rw [eL]; rfl, Z0, by simp [delFix, erT, ec], rfl⟩
  | true =>
    simp only [if_true, wp_bind]
    rw [wp_isRedP_tree n3]
    cases ey : isRed (erase f.sib) with
    | false =>
      simp only [Bool.false_eq_true, if_false, wp_bind, wp_pure]
      refine wp_conseq (siblingP_spec P hRs Z0 eL) ?_
      intro _ h' D
      rw [delFix_sib (f := erT (f, tg)) (by simpa [erT] using ec) (by simpa [erT] using ey)]
      exact D
    | true =>
      simp only [if_true, wp_bind]
      cases hs : f.sib with
      | nil => rw [hs] at ey; simp [isRed] at ey
      | node yad yl yr =>
      obtain ⟨ya, yd⟩ := yad
      rw [hs] at ey n3 n1
      simp only [erase_node, isRed] at ey
      have WF : W F.a := own _ (by simp)
      have Wn : W f.a := own _ (by simp)
      have cn := hc f.a; have cp := hc F.a
      have on := P.one f.a; have op := P.one F.a
      simp only [cntC_cons, hs] at cn cp
      have npn : F.a ≠ f.a := by grind
      have zn : cnt f.a x = 0 ∧ cnt f.a (.node (ya, yd) yl yr) = 0 ∧ cnt f.a F.sib = 0 ∧ cntC f.a L = 0 := by grind
      have zp : cnt F.a x = 0 ∧ cnt F.a (.node (ya, yd) yl yr) = 0 ∧ cnt F.a F.sib = 0 ∧ cntC F.a L = 0 := by grind
      have WN : W h.next := (P.fresh _ hb).1
      have m_y := n3.1
      simp only at m_y
      rw [node_cell2 ya yd yl yr f.dir] at m_y
      rw [ptr_node, wp_fullCopy m_y, wp_setChld (c := cell2 f.d f.dir (ptr x) (some ya)) (by rw [Heap.mem_push, if_neg (by omega)]; exact n1), cell2_setChild_not]
      refine ⟨Wn, ?_⟩
      refine wp_single (a := f.a) (b := h.next) (da := f.d) (db := yd) (dir := !f.dir) (x := ptr x) (y := ptr ((BTree.node (ya, yd) yl yr).child (!f.dir)))
        (z := ptr ((BTree.node (ya, yd) yl yr).child f.dir)) (by rw [Heap.mem_put_self, cell2_flip])
        (by rw [Heap.mem_put, if_neg (by omega), Heap.mem_push_self, cell2_flip]) (by omega) Wn WN ?_
      rw [wp_setChld (c := cell2 F.d F.dir (some f.a) (ptr F.sib)) (by
        rw [Heap.mem_put, if_neg (by omega), Heap.mem_put, if_neg npn, Heap.mem_put, if_neg npn, Heap.mem_push, if_neg (by omega)]; exact p1), cell2_setChild]
      refine ⟨WF, ?_⟩
      simp only [cell2_flip]
      generalize hh1 : ((((h.push (cell2 yd f.dir (ptr ((BTree.node (ya, yd) yl yr).child f.dir)) (ptr ((BTree.node (ya, yd) yl yr).child (!f.dir))))).put f.a
        (cell2 f.d f.dir (ptr x) (some h.next))).put f.a (cell2 (f.d.col true) f.dir (ptr x) (ptr ((BTree.node (ya, yd) yl yr).child f.dir)))).put h.next
        (cell2 (yd.col false) f.dir (some f.a) (ptr ((BTree.node (ya, yd) yl yr).child (!f.dir))))).put F.a (cell2 F.d F.dir (some h.next) (ptr F.sib)) = h1
      have nx : h1.next = h.next + 1 := by subst hh1; rfl
      have ag : ∀ y, y < h.next → y ∉ [F.a, f.a] → h1.mem y = h.mem y := by
        subst hh1; intro y hy hy'; simp only [Heap.mem_put, Heap.mem_push]; grind
      have m_p : h1.mem F.a = some (cell2 F.d F.dir (some h.next) (ptr F.sib)) := by subst hh1; simp
      have m_n : h1.mem f.a = some (cell2 (f.d.col true) f.dir (ptr x) (ptr ((BTree.node (ya, yd) yl yr).child f.dir))) := by
        subst hh1; simp only [Heap.mem_put]; grind
      have m_s : h1.mem h.next = some (cell2 (yd.col false) f.dir (some f.a) (ptr ((BTree.node (ya, yd) yl yr).child (!f.dir)))) := by
        subst hh1; simp only [Heap.mem_put]; grind
      rw [wp_load m_p, cell2_child, wp_pure]
      have hz : ∀ (t : ATree (RD K V)), cnt F.a t = 0 → cnt f.a t = 0 → ∀ s ∈ [F.a, f.a], cnt s t = 0 := by
        intro t q1 q2; simp [q1, q2]
      have hyz : ∀ b y, cnt y (BTree.node (ya, yd) yl yr) = 0 → cnt y ((BTree.node (ya, yd) yl yr).child b) = 0 := by
        intro b y q; rw [cnt_child y _ _ _ b] at q; omega
      have rch : ∀ b, Rep h1 ((BTree.node (ya, yd) yl yr).child b) := fun b =>
        rep_agree (rep_child n3 b) _ (by omega) ag (hz _ (hyz b _ zp.2.1) (hyz b _ zn.2.1))
      refine ⟨{ f with d := f.d.col true, sib := (BTree.node (ya, yd) yl yr).child f.dir },
        (⟨h.next, yd.col false, f.dir, (BTree.node (ya, yd) yl yr).child (!f.dir)⟩, false) :: Ls, rfl, rfl, rfl, ⟨?_, ?_, ?_, ?_, by omega⟩, ?_, by simp [tgtPtr]⟩
      · exact rep_agree hx _ (by omega) ag (hz _ zp.1 zn.1)
      · rw [fr_cons, fr_cons, eL]
        exact ⟨m_n, by simp only; omega, rch _, m_s, by simp only; omega, rch _, m_p, by omega, rep_agree p3 _ (by omega) ag (hz _ zp.2.2.1 zn.2.2.1),
          repC_agree g4 _ (by omega) ag (show ∀ s ∈ [F.a, f.a], cntC s L = 0 by simp [zp, zn])⟩
      · intro y
        rw [fr_cons, fr_cons, eL]
        have c := hc y
        have cy := cnt_child y (ya, yd) yl yr f.dir
        have f1 := rep_zero hx y; have f2 := rep_zero n3 y; have f3 := rep_zero p3 y; have f4 := repC_zero g4 y
        have fp := P.fresh y
        simp only [cntC_cons, hs] at c ⊢
        clear hyz rch hz ag
        grind
      · intro G hG
        rw [fr_cons, fr_cons, eL] at hG
        simp only [List.mem_cons] at hG
        rcases hG with rfl | rfl | hG
        · exact Wn
        · exact WN
        · exact own _ (by simp [hG])
      · simp only [List.map_cons, erT, delFix, ec, if_true, hs, erase_node, ey, erase_child]

/-- Loop variables of the deletion. -/
structure DHead (W : Nat → Prop) (bnd : Nat → Nat) (base : Nat) (R : AFrame (RD K V)) (Ls : List (TFrame K V)) (F : AFrame (RD K V)) (L : List (AFrame (RD K V)))
    (x : ATree (RD K V)) (s : DSt) (h : Heap (RD K V)) : Prop where
  zip : Zip W bnd base R Ls x h
  frames : fr Ls R = F :: L
  n : s.n = some F.a
  dir : s.dir = F.dir
  p : s.p = top L
  t : s.t = tgtPtr Ls

theorem delIter_spec (P : Perm W bnd base) {R F : AFrame (RD K V)} {Ls : List (TFrame K V)} {L : List (AFrame (RD K V))} {a : Nat} {d : RD K V} {l r : ATree (RD K V)}
    {s : DSt} {cmp : K → K → Int} {key : K} (hRs : R.sib = .nil) (D : DHead W bnd base R Ls F L (.node (a, d) l r) s h) :
    wp W (delIter cmp key s) (fun s' h' => ∃ Ls' F' L', DHead W bnd base R Ls' F' L' ((BTree.node (a, d) l r).child (decide (cmp d.key key < 0))) s' h' ∧ Ls' ≠ [] ∧
      Ls'.map erT = delFix (Ls.map erT) { d := d, dir := decide (cmp d.key key < 0), sib := (BTree.node d (erase l) (erase r)).child (!decide (cmp d.key key < 0)), tgt := decide (cmp d.key key = 0) } ((BTree.node d (erase l) (erase r)).child (decide (cmp d.key key < 0)))) h := by
  obtain ⟨⟨hx, hL, hc, own, hb⟩, eL, sn, sd, sp, st⟩ := D
  obtain ⟨p, n, t, dir⟩ := s
  simp only at sn sd sp st
  subst sn sd sp st
  rw [eL] at hL hc own
  obtain ⟨p1, p2, p3, g4⟩ := hL
  obtain ⟨x1, x2, hl, hr⟩ := hx
  simp only at x1 x2
  have WF : W F.a := own _ (by simp)
  have cp := hc F.a
  have op := P.one F.a
  simp only [cntC_cons, cnt_node] at cp
  have zp : cnt F.a l = 0 ∧ cnt F.a r = 0 ∧ cnt F.a F.sib = 0 ∧ cntC F.a L = 0 := by grind
  have WN : W h.next := (P.fresh _ hb).1
  simp only [delIter, wp_bind, wp_load p1, cell2_child, ptr_node]
  rw [wp_fullCopy x1, wp_setChld (c := cell2 F.d F.dir (some a) (ptr F.sib)) (by rw [Heap.mem_push, if_neg (by omega)]; exact p1), cell2_setChild]
  refine ⟨WF, ?_⟩
  generalize hh1 : (h.push ⟨d, ptr l, ptr r⟩).put F.a (cell2 F.d F.dir (some h.next) (ptr F.sib)) = h1
  have nx : h1.next = h.next + 1 := by subst hh1; rfl
  have ag : ∀ y, y < h.next → y ∉ [F.a] → h1.mem y = h.mem y := by
    subst hh1; intro y hy hy'; simp only [Heap.mem_put, Heap.mem_push]; grind
  have m_p : h1.mem F.a = some (cell2 F.d F.dir (some h.next) (ptr F.sib)) := by subst hh1; simp
  have m_n : h1.mem h.next = some ⟨d, ptr l, ptr r⟩ := by subst hh1; simp only [Heap.mem_put, Heap.mem_push]; grind
  rw [wp_load m_p]
  simp only [cell2_child]
  rw [wp_load m_n]
  simp only
  generalize hdir : decide (cmp d.key key < 0) = dir
  have hxz : ∀ b y, cnt y l = 0 → cnt y r = 0 → cnt y ((BTree.node (a, d) l r).child b) = 0 := by
    intro b y q1 q2; cases b <;> simp [q1, q2]
  have rc : ∀ b, Rep h ((BTree.node (a, d) l r).child b) := fun b => by cases b <;> simp [hl, hr]
  have rch : ∀ b, Rep h1 ((BTree.node (a, d) l r).child b) := fun b =>
    rep_agree (rc b) _ (by omega) ag (by simp [hxz b _ zp.1 zp.2.1])
  have Z : Zip W bnd base R ((⟨h.next, d, dir, (BTree.node (a, d) l r).child (!dir)⟩, decide (cmp d.key key = 0)) :: Ls) ((BTree.node (a, d) l r).child dir) h1 := by
    refine ⟨rch _, ?_, ?_, ?_, by omega⟩
    · rw [fr_cons, eL]
      refine ⟨?_, by simp only; omega, rch _, m_p, by omega, rep_agree p3 _ (by omega) ag (by simp [zp]),
        repC_agree g4 _ (by omega) ag (show ∀ s ∈ [F.a], cntC s L = 0 by simp [zp])⟩
      rw [m_n]; exact congrArg some (node_cell2 a d l r dir)
    · intro y
      rw [fr_cons, eL]
      have c := hc y
      have cy := cnt_child y (a, d) l r dir
      have f1 := rep_zero hl y; have f2 := rep_zero hr y; have f3 := rep_zero p3 y; have f4 := repC_zero g4 y
      have fp := P.fresh y
      simp only [cntC_cons, cnt_node] at c cy ⊢
      clear rch rc hxz ag
      grind
    · intro G hG
      rw [fr_cons, eL] at hG
      simp only [List.mem_cons] at hG
      rcases hG with rfl | hG
      · exact WN
      · exact own _ (by simpa using hG)
  refine wp_conseq (delFixP_spec P hRs Z eL) ?_
  rintro p h' ⟨f', Lr, e1, e2, e3, Z', e4, e5⟩
  rw [wp_pure]
  refine ⟨(f', decide (cmp d.key key = 0)) :: Lr, f', fr Lr R, ⟨Z', rfl, by simp [e1], by simp [e2], e3, ?_⟩, by simp, ?_⟩
  · rw [e5]; simp only [tgtPtr]; simp
  · rw [e4]; simp only [erT, erase_child, erase_node]

theorem DelBal.sib_nil {f : Frame K V} {rest : List (Frame K V)} {n : Nat} (h : DelBal (f :: rest) (.nil : RTree K V) n) : f.sib = .nil := by
  obtain ⟨hbal, hcb, hpar, hred⟩ := h
  have hn : n = 0 := hbal
  subst hn
  obtain ⟨c1, c2⟩ := hcb
  have hnil : isRed f.sib = false → f.sib = .nil := by
    intro hr
    cases hs : f.sib with
    | nil => rfl
    | node sd sl sr =>
      rw [hs] at c1 hr
      obtain ⟨m, h, _⟩ := (RBal_black (by simpa using hr)).1 c1
      cases h
  rcases hred with h | h | h | ⟨P, h, h'⟩
  · cases h
  · have hf : f.d.red = true := h
    simp only [hf, if_true] at c2
    exact hnil c2.1
  · simp at h
  · cases h; exact hnil h'

/-- State at the end of the deletion loop. -/
def DEnd (W : Nat → Prop) (bnd : Nat → Nat) (base : Nat) (R : AFrame (RD K V)) (res : RTree K V × Bool) (s : DSt) (h : Heap (RD K V)) : Prop :=
  ∃ Ls F L, DHead W bnd base R Ls F L .nil s h ∧ delEnd (Ls.map erT) = res ∧ ∃ n, DelBal (Ls.map erT) .nil n

theorem delLoopP_spec (P : Perm W bnd base) {R : AFrame (RD K V)} (hRs : R.sib = .nil) {cmp : K → K → Int} {key : K} :
    ∀ (f : Nat) {h : Heap (RD K V)} {F : AFrame (RD K V)} {Ls : List (TFrame K V)} {L : List (AFrame (RD K V))} {x : ATree (RD K V)} {s : DSt} {n : Nat},
    x.height + 1 ≤ f → DHead W bnd base R Ls F L x s h → DelBal (Ls.map erT) (erase x) n →
    wp W (delLoopP cmp key f s) (fun s' h' => DEnd W bnd base R (delLoop cmp key (Ls.map erT) (erase x)) s' h') h := by
  intro f
  induction f with
  | zero => intro h F Ls L x s n hf; omega
  | succ f ih =>
    intro h F Ls L x s n hf D B
    have D0 := D
    obtain ⟨⟨hx, hL, hc, own, hb⟩, eL, sn, sd, sp, st⟩ := D
    rw [eL] at hL
    have p1 := hL.1
    simp only [delLoopP, wp_bind]
    rw [sn, wp_load p1, sd, cell2_child]
    cases x with
    | nil =>
      simp only [ptr_nil, ne_eq, not_true_eq_false, if_false, wp_pure]
      exact ⟨Ls, F, L, D0, by simp [delLoop], n, B⟩
    | node ad l r =>
      obtain ⟨a, d⟩ := ad
      simp only [ptr_node, ne_eq, reduceCtorEq, not_false_eq_true, if_true, wp_bind]
      refine wp_conseq (delIter_spec P hRs D0) ?_
      rintro s' h' ⟨Ls', F', L', D', _, e⟩
      have hh : ((BTree.node (a, d) l r).child (decide (cmp d.key key < 0))).height + 1 ≤ f := by
        simp only [BTree.height] at hf
        cases decide (cmp d.key key < 0) <;> simp <;> omega
      obtain ⟨m, hm⟩ := delFix_balanced (ctx := Ls.map erT) (n := n)
        (f := { d := d, dir := decide (cmp d.key key < 0), sib := (BTree.node d (erase l) (erase r)).child (!decide (cmp d.key key < 0)), tgt := decide (cmp d.key key = 0) })
        (x := (BTree.node d (erase l) (erase r)).child (decide (cmp d.key key < 0))) (by
          have : BTree.mk2 d (decide (cmp d.key key < 0)) ((BTree.node d (erase l) (erase r)).child (decide (cmp d.key key < 0)))
              ((BTree.node d (erase l) (erase r)).child (!decide (cmp d.key key < 0))) = .node d (erase l) (erase r) := by
            cases decide (cmp d.key key < 0) <;> rfl
          simp only [this]; exact B)
      refine wp_conseq (ih hh D' (n := m) (by rw [e, erase_child]; exact hm)) ?_
      intro s2 h2 E
      have : delLoop cmp key (List.map erT Ls) (erase (.node (a, d) l r)) =
          delLoop cmp key (List.map erT Ls') (erase ((BTree.node (a, d) l r).child (decide (cmp d.key key < 0)))) := by
        rw [e]
        simp only [erase_node, delLoop]
        by_cases hlt : cmp d.key key < 0
        · have : cmp d.key key ≠ 0 := by omega
          simp [hlt, this]
        · simp [hlt]
      rw [this]; exact E

/-! ## After the loop -/

/-- `setTgt` on frames with addresses. -/
def setTgtA (key : K) (value : V) : List (TFrame K V) → List (TFrame K V)
  | [] => []
  | F :: Ls => if F.2 then ({ F.1 with d := { F.1.d with key := key, value := value } }, F.2) :: Ls else F :: setTgtA key value Ls

theorem erT_setTgtA (key : K) (value : V) (Ls : List (TFrame K V)) : (setTgtA key value Ls).map erT = setTgt key value (Ls.map erT) := by
  induction Ls with
  | nil => rfl
  | cons F Ls ih =>
    by_cases hF : F.2 = true
    · simp [setTgtA, setTgt, hF, erT]
    · simp [setTgtA, setTgt, hF, erT, ih]

theorem cntC_setTgtA (key : K) (value : V) (R : AFrame (RD K V)) (y : Nat) (Ls : List (TFrame K V)) :
    cntC y (fr (setTgtA key value Ls) R) = cntC y (fr Ls R) := by
  induction Ls with
  | nil => rfl
  | cons F Ls ih =>
    by_cases hF : F.2 = true
    · simp [setTgtA, hF]
    · simp [setTgtA, hF, ih]

theorem addr_setTgtA (key : K) (value : V) (R : AFrame (RD K V)) (Ls : List (TFrame K V)) :
    (fr (setTgtA key value Ls) R).map (·.a) = (fr Ls R).map (·.a) := by
  induction Ls with
  | nil => rfl
  | cons F Ls ih =>
    by_cases hF : F.2 = true
    · simp [setTgtA, hF]
    · simp [setTgtA, hF, ih]

theorem tgtPtr_cnt {Ls : List (TFrame K V)} {R : AFrame (RD K V)} {t : Nat} (ht : tgtPtr Ls = some t) : 1 ≤ cntC t (fr Ls R) := by
  induction Ls with
  | nil => cases ht
  | cons F Ls ih =>
    by_cases hF : F.2 = true
    · simp only [tgtPtr, hF, if_true, Option.some.injEq] at ht
      simp only [fr_cons, cntC_cons, ht, if_true]; omega
    · simp only [tgtPtr, hF] at ht
      have := ih (by simpa using ht)
      simp only [fr_cons, cntC_cons]; omega

theorem tgt_write {Ls : List (TFrame K V)} {R : AFrame (RD K V)} {t : Nat} {q : Ptr} (ht : tgtPtr Ls = some t) (hL : RepC h q (fr Ls R))
    (h1 : ∀ y, cntC y (fr Ls R) ≤ 1) :
    (∃ F ∈ fr Ls R, F.a = t) ∧ ∃ c, h.mem t = some c ∧ ∀ key value, RepC (h.put t { c with d := { c.d with key := key, value := value } }) q (fr (setTgtA key value Ls) R) := by
  induction Ls generalizing q with
  | nil => cases ht
  | cons F Ls ih =>
    rw [fr_cons] at hL
    obtain ⟨l1, l2, l3, l4⟩ := hL
    have c1 := h1 t
    rw [fr_cons, cntC_cons] at c1
    by_cases hF : F.2 = true
    · simp only [tgtPtr, hF, if_true, Option.some.injEq] at ht
      subst ht
      have z : cnt F.1.a F.1.sib = 0 ∧ cntC F.1.a (fr Ls R) = 0 := by simp only [if_true] at c1; omega
      refine ⟨⟨F.1, by simp, rfl⟩, _, l1, fun key value => ?_⟩
      simp only [setTgtA, hF, if_true, fr_cons]
      refine ⟨?_, l2, rep_put l3 z.1 _, repC_put l4 z.2 _⟩
      simp only [Heap.mem_put_self]
      cases F.1.dir <;> rfl
    · simp only [tgtPtr, hF] at ht
      have ht : tgtPtr Ls = some t := by simpa using ht
      have c2 := tgtPtr_cnt (R := R) ht
      have z : F.1.a ≠ t ∧ cnt t F.1.sib = 0 := by
        refine ⟨fun e => ?_, by omega⟩
        simp only [e, if_true] at c1; omega
      obtain ⟨⟨G, hG, e⟩, c, hc, k⟩ := ih ht l4 (fun y => by have := h1 y; rw [fr_cons, cntC_cons] at this; omega)
      refine ⟨⟨G, by simp [hG], e⟩, c, hc, fun key value => ?_⟩
      have := k key value
      simp only [setTgtA, hF]
      exact ⟨by rw [Heap.mem_put, if_neg z.1]; exact l1, l2, rep_put l3 z.2 _, this⟩

theorem tgtPtr_any (Ls : List (TFrame K V)) : (Ls.map erT).any (·.tgt) = decide (tgtPtr Ls ≠ none) := by
  induction Ls with
  | nil => rfl
  | cons F Ls ih =>
    by_cases hF : F.2 = true
    · simp [tgtPtr, hF, erT]
    · simp only [Bool.not_eq_true] at hF
      simp only [List.map_cons, List.any_cons, ih, tgtPtr, hF]
      simp [erT, hF]

theorem erase_plugT (t : ATree (RD K V)) (Ls : List (TFrame K V)) : erase (AFrame.plug (Ls.map Prod.fst) t) = RB.plug (erase t) (Ls.map erT) := by
  induction Ls generalizing t with
  | nil => rfl
  | cons F L ih => simp [AFrame.plug, RB.plug, ih, erT]

/-- Memory with the whole tree under the fake root. -/
def Whole (W : Nat → Prop) (bnd : Nat → Nat) (R : AFrame (RD K V)) (T : RTree K V) (h : Heap (RD K V)) : Prop :=
  ∃ A, erase A = T ∧ Rep h (.mk2 (R.a, R.d) R.dir A R.sib) ∧ (∀ y, cnt y A + (if R.a = y then 1 else 0) ≤ bnd y) ∧ ∀ x, ptr A = some x → W x

theorem whole_of {R : AFrame (RD K V)} {Ls : List (TFrame K V)} {x : ATree (RD K V)} (hx : Rep h x) (hL : RepC h (ptr x) (fr Ls R))
    (hc : ∀ y, cnt y x + cntC y (fr Ls R) ≤ bnd y) (own : ∀ a ∈ (fr Ls R).map (·.a), W a) (ox : ∀ a, ptr x = some a → W a) :
    Whole W bnd R (RB.plug (erase x) (Ls.map erT)) h := by
  refine ⟨AFrame.plug (Ls.map Prod.fst) x, erase_plugT x Ls, ?_, fun y => ?_, fun a ha => ?_⟩
  · have := (AFrame.rep_plug (fr Ls R) x).2 ⟨hL, hx⟩
    rw [fr, plug_append] at this
    exact this
  · have h1 := hc y
    have h2 := cnt_plug y (Ls.map Prod.fst) x
    have h3 := cnt_plug y (fr Ls R) x
    rw [fr, plug_append] at h3
    simp only [AFrame.plug, cnt_mk2] at h3
    unfold fr at h1
    omega
  · rcases ptr_plug_mem _ _ ha with ⟨F, hF, rfl⟩ | e
    · exact own _ (by simp only [fr, List.map_append, List.mem_append, List.mem_map]; exact .inl ⟨F, by simpa using hF, rfl⟩)
    · exact ox _ e

theorem delEndP_spec (P : Perm W bnd base) {R : AFrame (RD K V)} {res : RTree K V × Bool} {s : DSt} (E : DEnd W bnd base R res s h) :
    wp W (delEndP s) (fun _ h' => Whole W bnd R res.1 h' ∧ res.2 = decide (s.t ≠ none)) h := by
  obtain ⟨Ls, F, L, D, rfl, n, B⟩ := E
  obtain ⟨⟨hx, hL, hc, own, hb⟩, eL, sn, sd, sp, st⟩ := D
  have own' : ∀ a ∈ (fr Ls R).map (·.a), W a := by
    intro a ha; obtain ⟨G, hG, rfl⟩ := List.mem_map.1 ha; exact own G hG
  unfold delEndP
  rw [st]
  cases Ls with
  | nil =>
    simp only [tgtPtr, ne_eq, not_true_eq_false, if_false, wp_pure]
    exact ⟨whole_of hx hL hc own' (by simp), rfl⟩
  | cons f rest =>
    obtain ⟨f, tg⟩ := f
    simp only [fr_cons, List.cons.injEq] at eL
    obtain ⟨rfl, rfl⟩ := eL
    have esib : f.sib = .nil := by
      have := DelBal.sib_nil (f := erT (f, tg)) B
      simp only [erT] at this
      cases hs : f.sib with
      | nil => rfl
      | node a l r => rw [hs] at this; simp at this
    have hl : cntC f.a (fr rest R) = 0 := by
      have h1 := hc f.a; have h2 := P.one f.a
      simp only [fr_cons, cntC_cons, if_true] at h1; omega
    have hany := tgtPtr_any ((f, tg) :: rest)
    cases htp : tgtPtr ((f, tg) :: rest) with
    | none =>
      simp only [ne_eq, not_true_eq_false, if_false, wp_pure]
      have e : delEnd (List.map erT ((f, tg) :: rest)) = (RB.plug (erase .nil) (((f, tg) :: rest).map erT), false) := by
        rw [htp] at hany
        simp only [List.map_cons, List.any_cons, ne_eq, not_true_eq_false, decide_false, Bool.or_eq_false_iff] at hany
        simp only [List.map_cons, delEnd, hany.1, hany.2, Bool.false_eq_true, if_false, RB.plug, erase_nil]
      rw [e]
      exact ⟨whole_of hx hL hc own' (by simp), rfl⟩
    | some t =>
      simp only [ne_eq, reduceCtorEq, not_false_eq_true, if_true, wp_bind]
      rw [fr_cons] at hL
      obtain ⟨n1, n2, n3, l4⟩ := hL
      rw [esib] at n1
      obtain ⟨F1, L2, e2⟩ : ∃ F1 L2, fr rest R = F1 :: L2 := by cases rest <;> simp
      -- unlinking the node
      have unlink : ∀ (h1 : Heap (RD K V)) (d' : RD K V) (Lt : List (TFrame K V)) (T : RTree K V), h1.mem f.a = some (cell2 d' f.dir none none) → RepC h1 (some f.a) (fr Lt R) →
          (∀ y, cntC y (fr Lt R) = cntC y (fr rest R)) → (fr Lt R).map (·.a) = (fr rest R).map (·.a) → T = RB.plug .nil (Lt.map erT) →
          wp W (load s.p) (fun cp h1 => wp W (load s.n) (fun cn h1 => wp W (setChld s.p (decide (cp.c1 = s.n)) (cn.child (decide (cn.c0 = none))))
            (fun _ h' => Whole W bnd R T h' ∧ true = true) h1) h1) h1 := by
        intro h1 d' Lt T q1 q2 q3 q4 q5
        obtain ⟨G1, M2, e3⟩ : ∃ F1 L2, fr Lt R = F1 :: L2 := by cases Lt <;> simp
        have eG : G1.a = F1.a := by rw [e2, e3] at q4; simpa using (List.cons.inj q4).1
        have WG : W G1.a := by rw [eG]; exact own' _ (by simp [e2])
        rw [sp, sn, e2, top_cons, ← eG]
        have q2' := q2
        rw [e3] at q2'
        have z := q3 G1.a
        have z2 := hc G1.a
        have z3 := P.one G1.a
        have z4 := q3 f.a
        rw [e3, cntC_cons] at z z4
        rw [hl] at z4
        simp only [fr_cons, cntC_cons] at z2
        simp only [if_true] at z
        have ed : decide ((cell2 G1.d G1.dir (some f.a) (ptr G1.sib)).c1 = some f.a) = G1.dir := by
          have hne : ptr G1.sib ≠ some f.a := ptr_ne (by omega)
          cases G1.dir <;> simp [cell2, hne]
        have ec : ∀ b, (cell2 d' f.dir none none).child b = none := by intro b; cases b <;> cases f.dir <;> rfl
        rw [wp_load q2'.1, wp_load q1, ed, ec, wp_setChld q2'.1, cell2_setChild]
        refine ⟨WG, ?_, rfl⟩
        rw [q5]
        have r1 := repC_setTop (q' := none) q2' (by omega) (by omega)
        rw [← e3] at r1
        refine whole_of (x := .nil) trivial r1 (fun y => ?_) (by rw [q4]; intro a ha; exact own' a (by simp only [fr_cons, List.map_cons, List.mem_cons]; exact .inr ha)) (by simp)
        have := hc y
        simp only [fr_cons, cntC_cons] at this
        rw [q3]; simp; omega
      cases tg with
      | true =>
        simp only [tgtPtr, if_true, Option.some.injEq] at htp
        subst htp
        rw [sn] at unlink ⊢
        rw [wp_load n1, wp_upd n1]
        have Wf : W f.a := own f (by simp)
        refine ⟨Wf, ?_⟩
        rw [wp_load (Heap.mem_put_self _ _ _), wp_upd (Heap.mem_put_self _ _ _)]
        refine ⟨Wf, ?_⟩
        have e : delEnd (List.map erT ((f, true) :: rest)) = (RB.plug .nil (rest.map erT), true) := by
          simp only [List.map_cons, delEnd]
          simp [erT, esib]
        rw [e]
        refine unlink _ f.d rest _ ?_ ?_ (fun _ => rfl) rfl rfl
        · simp only [Heap.mem_put_self, cell2_d]
          cases f.dir <;> rfl
        · exact repC_put (repC_put l4 hl _) hl _
      | false =>
        simp only [tgtPtr, Bool.false_eq_true, if_false] at htp
        obtain ⟨⟨G, hG, eG⟩, c, hcell, k⟩ := tgt_write htp l4 (fun y => by
          have h1 := hc y; have h2 := P.one y; simp only [fr_cons, cntC_cons] at h1; omega)
        have c2 := tgtPtr_cnt (R := R) htp
        have nt : f.a ≠ t := by intro e; rw [e] at hl; omega
        have Wt : W t := by rw [← eG]; exact own G (by simp [hG])
        have n1' : ∀ c, (h.put t c).mem f.a = some (cell2 f.d f.dir none none) := by
          intro c; rw [Heap.mem_put, if_neg nt]; exact n1
        have e : delEnd (List.map erT ((f, false) :: rest)) = (RB.plug .nil ((setTgtA f.d.key f.d.value rest).map erT), true) := by
          rw [erT_setTgtA]
          have := tgtPtr_any rest
          rw [htp] at this
          simp only [List.map_cons, delEnd, this]
          simp [erT, esib]
        rw [e]
        rw [sn] at unlink ⊢
        rw [wp_load n1, wp_upd hcell]
        refine ⟨Wt, ?_⟩
        rw [wp_load (n1' _), wp_upd (Heap.mem_put_self _ _ _)]
        refine ⟨Wt, ?_⟩
        rw [Heap.put_put_same]
        simp only [cell2_d]
        exact unlink _ f.d (setTgtA f.d.key f.d.value rest) _ (n1' _) (k _ _) (fun y => cntC_setTgtA _ _ _ y _) (addr_setTgtA _ _ _ _) rfl

theorem delP_spec [Inhabited K] [Inhabited V] {cmp : K → K → Int} {f : Nat} {A : ATree (RD K V)} (hA : Rep h A) (h1 : ∀ x, cnt x A ≤ 1)
    (hf : A.height + 1 ≤ f) {key : K} (hbal : Balanced (erase A)) :
    wp (fun a => h.next ≤ a) (delP cmp f (ptr A) key) (fun p h' => ∃ A', p.1 = ptr A' ∧ Rep h' A' ∧ (erase A', p.2) = RB.del cmp (erase A) key ∧
      ∀ x, cnt x A' ≤ if h.next ≤ x then 1 else cnt x A) h := by
  have P : Perm (fun a => h.next ≤ a) (fun x => if h.next ≤ x then 1 else cnt x A) h.next :=
    ⟨fun x => by have := h1 x; grind, fun x hx => ⟨hx, by simp [hx]⟩⟩
  obtain ⟨hr, n, hn⟩ := hbal
  simp only [delP, wp_bind, wp_new]
  have D : DHead (fun a => h.next ≤ a) (fun x => if h.next ≤ x then 1 else cnt x A) h.next
      (⟨h.next, { key := default, value := default, red := false }, true, .nil⟩ : AFrame (RD K V)) [] ⟨h.next, { key := default, value := default, red := false }, true, .nil⟩ [] A
      { p := none, n := some h.next, t := none, dir := true } (h.push ⟨{ key := default, value := default, red := false }, none, ptr A⟩) := by
    refine ⟨⟨rep_push hA _, ⟨by simp [cell2], by simp, trivial, trivial⟩, fun x => ?_, ?_, by simp⟩, rfl, rfl, rfl, rfl, rfl⟩
    · have := rep_zero hA x
      simp only [fr_nil, cntC_cons, cntC_nil, cnt_nil]; grind
    · intro F hF; simp at hF; subst hF; exact Nat.le_refl _
  refine wp_conseq (delLoopP_spec P rfl (cmp := cmp) (key := key) f hf D (n := n) ⟨hn, trivial, by simp [parentRed], .inl rfl⟩) ?_
  intro s h2 E
  refine wp_conseq (delEndP_spec P E) ?_
  rintro _ h3 ⟨⟨B, eB, rB, cB, oB⟩, e⟩
  rw [rep_mk2] at rB
  obtain ⟨q1, q2, q3, q4⟩ := rB
  simp only at q1
  rw [wp_load q1]
  have ec : (cell2 ({ key := default, value := default, red := false } : RD K V) true (ptr B) (ptr (.nil : ATree (RD K V)))).c1 = ptr B := rfl
  simp only [ec]
  cases B with
  | nil =>
    simp only [ptr_nil, ne_eq, not_true_eq_false, if_false, wp_pure]
    refine ⟨.nil, rfl, trivial, ?_, by simp⟩
    simp only [del]
    rw [← e]
    simp only [List.map_nil, erase_nil] at eB
    rw [List.map_nil, ← eB]; rfl
  | node ad l r =>
    obtain ⟨a, d⟩ := ad
    simp only [ptr_node, ne_eq, reduceCtorEq, not_false_eq_true, if_true, wp_bind]
    have zx : cnt a l = 0 ∧ cnt a r = 0 := by
      have h1 := cB a; have := P.one a
      simp only [cnt_node, if_true] at h1; omega
    rw [wp_setRedP q3.1]
    refine ⟨oB a rfl, ?_⟩
    simp only [wp_pure]
    refine ⟨.node (a, d.col false) l r, rfl, ⟨by simp, q3.2.1, rep_put q3.2.2.1 zx.1 _, rep_put q3.2.2.2 zx.2 _⟩, ?_, fun y => ?_⟩
    · simp only [del]
      rw [← e]
      simp only [List.map_nil, erase_node] at eB ⊢
      rw [← eB]; rfl
    · have := cB y
      simp only [cnt_node] at this ⊢; omega

end Verif.RBHeap
