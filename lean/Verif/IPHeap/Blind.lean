import Verif.NumHeap.Blind
import Verif.IPHeap.History

/-! # The programs of iptree do not look at the names of addresses -/

namespace Verif.IPHeap
open Verif Verif.Heap Verif.Heap.Prog Verif.Num Verif.NumHeap Verif.IP

variable {V : Type} {ρ : Addr → Addr → Prop}

/-- The same user value, or related nested trees. -/
def HVR (ρ : Addr → Addr → Prop) : HV V → HV V → Prop
  | .user v, .user w => v = w
  | .sub p, .sub q => PR ρ p q
  | _, _ => False

theorem HVR.mono {σ : Addr → Addr → Prop} (h : ∀ a b, ρ a b → σ a b) {x y : HV V} (hx : HVR ρ x y) : HVR σ x y := by
  cases x <;> cases y <;> first | exact hx | exact PR.mono h hx

/-- Related contents of cells of the same type. -/
def IDR (ρ : Addr → Addr → Prop) : IPD V → IPD V → Prop
  | .n32 d, .n32 e => NDR Eq d e
  | .n64 d, .n64 e => NDR (HVR ρ) d e
  | .tree, .tree => True
  | _, _ => False

/-- Cells of the same type with related contents and pointers. -/
def ICellR (ρ : Addr → Addr → Prop) (c d : Cell (IPD V)) : Prop := PR ρ c.c0 d.c0 ∧ PR ρ c.c1 d.c1 ∧ IDR ρ c.d d.d

theorem IDR.mono {σ : Addr → Addr → Prop} (h : ∀ a b, ρ a b → σ a b) {c d : IPD V} (hc : IDR ρ c d) : IDR σ c d := by
  cases c <;> cases d <;> first | exact hc | exact ⟨hc.key, hc.bits, hc.leaf, hc.value.mono h⟩

theorem i32a (c d : Cell (IPD V)) (hc : ICellR ρ c d) : (k32.cell c = none ∧ k32.cell d = none) ∨ ∃ c' d', k32.cell c = some c' ∧ k32.cell d = some d' ∧ NCellR ρ Eq c' d' := by
  obtain ⟨c, x, y⟩ := c
  obtain ⟨d, x', y'⟩ := d
  obtain ⟨h1, h2, h3⟩ := hc
  cases c <;> cases d <;> first | exact h3.elim | exact .inl ⟨rfl, rfl⟩ | exact .inr ⟨_, _, rfl, rfl, h1, h2, h3⟩
theorem i32b (c d : Cell (ND 32 V)) (hc : NCellR ρ Eq c d) : ICellR ρ (c.map k32.inj) (d.map k32.inj) := ⟨hc.c0, hc.c1, hc.d⟩
theorem i64a (c d : Cell (IPD V)) (hc : ICellR ρ c d) : (k64.cell c = none ∧ k64.cell d = none) ∨ ∃ c' d', k64.cell c = some c' ∧ k64.cell d = some d' ∧ NCellR ρ (HVR ρ) c' d' := by
  obtain ⟨c, x, y⟩ := c
  obtain ⟨d, x', y'⟩ := d
  obtain ⟨h1, h2, h3⟩ := hc
  cases c <;> cases d <;> first | exact h3.elim | exact .inl ⟨rfl, rfl⟩ | exact .inr ⟨_, _, rfl, rfl, h1, h2, h3⟩
theorem i64b (c d : Cell (ND 64 (HV V))) (hc : NCellR ρ (HVR ρ) c d) : ICellR ρ (c.map k64.inj) (d.map k64.inj) := ⟨hc.c0, hc.c1, hc.d⟩

/-- Related pointers in the cells of `Tree`. -/
def TreeR (ρ : Addr → Addr → Prop) (c d : Cell Unit) : Prop := PR ρ c.c0 d.c0 ∧ PR ρ c.c1 d.c1

theorem itra (c d : Cell (IPD V)) (hc : ICellR ρ c d) : (kTree.cell c = none ∧ kTree.cell d = none) ∨ ∃ c' d', kTree.cell c = some c' ∧ kTree.cell d = some d' ∧ TreeR ρ c' d' := by
  obtain ⟨c, x, y⟩ := c
  obtain ⟨d, x', y'⟩ := d
  obtain ⟨h1, h2, h3⟩ := hc
  cases c <;> cases d <;> first | exact h3.elim | exact .inl ⟨rfl, rfl⟩ | exact .inr ⟨_, _, rfl, rfl, h1, h2⟩
theorem itrb (c d : Cell Unit) (hc : TreeR ρ c d) : ICellR (V := V) ρ (c.map kTree.inj) (d.map kTree.inj) := ⟨hc.1, hc.2, trivial⟩

abbrev BI (ρ : Addr → Addr → Prop) {α β : Type} (p : Prog (IPD V) α) (q : Prog (IPD V) β) (P : α → β → Prop) : Prop := p.Sim ρ (ICellR ρ) P q

theorem B_on32 {α β : Type} {P : α → β → Prop} {p : Prog (ND 32 V) α} {q : Prog (ND 32 V) β} (h : NS ρ Eq p q P) : BI ρ (on32 p) (on32 q) P := sim_lift i32a i32b h
theorem B_on64 {α β : Type} {P : α → β → Prop} {p : Prog (ND 64 (HV V)) α} {q : Prog (ND 64 (HV V)) β} (h : NS ρ (HVR ρ) p q P) : BI ρ (on64 p) (on64 q) P := sim_lift i64a i64b h

/-- Related pairs of pointers. -/
def PP (ρ : Addr → Addr → Prop) (x y : Ptr × Ptr) : Prop := PR ρ x.1 y.1 ∧ PR ρ x.2 y.2

theorem B_rootsP {t t' : Ptr} (ht : PR ρ t t') : BI ρ (rootsP t : Prog (IPD V) _) (rootsP t') (PP ρ) := sim_lift itra itrb (sim_load ht fun _ _ hc => hc)
theorem B_newTreeP {x x' y y' : Ptr} (hx : PR ρ x x') (hy : PR ρ y y') : BI ρ (newTreeP x y : Prog (IPD V) _) (newTreeP x' y') (PR ρ) :=
  sim_lift itra itrb (sim_bind (sim_new ⟨hx, hy⟩) fun _ _ ha => ha)
theorem B_rootsOrNilP {t t' : Ptr} (ht : PR ρ t t') : BI ρ (rootsOrNilP t : Prog (IPD V) _) (rootsOrNilP t') (PP ρ) :=
  sim_ite ht.not_none (fun _ _ => B_rootsP ht) fun _ _ => ⟨trivial, trivial⟩
theorem B_setRoot32 {t t' r r' : Ptr} (ht : PR ρ t t') (hr : PR ρ r r') : BI ρ (setRoot32 t r : Prog (IPD V) _) (setRoot32 t' r') NTr :=
  sim_lift itra itrb (sim_upd ht fun _ _ hc => ⟨hr, hc.2⟩)
theorem B_setRoot64 {t t' r r' : Ptr} (ht : PR ρ t t') (hr : PR ρ r r') : BI ρ (setRoot64 t r : Prog (IPD V) _) (setRoot64 t' r') NTr :=
  sim_lift itra itrb (sim_upd ht fun _ _ hc => ⟨hc.1, hr⟩)

theorem B_subP {x y : Option (HV V)} (h : NOptR (HVR ρ) x y) : BI ρ (subP x) (subP y) (PR ρ) := by
  cases x <;> cases y
  · exact trivial
  · exact h.elim
  · exact h.elim
  rename_i x y
  cases x <;> cases y
  · exact rfl
  · exact h.elim
  · exact h.elim
  · exact h

theorem pr_nil : PR ρ none none := trivial

section
variable [Inhabited V]

theorem hvr_default : HVR ρ (default : HV V) default := rfl

theorem B_InsertNetP (f : Nat) {t t' : Ptr} (ht : PR ρ t t') (n : Option IPNet) (v : V) : BI ρ (InsertNetP f t n v) (InsertNetP f t' n v) (PR ρ) := by
  unfold InsertNetP
  cases n with
  | none => exact ht
  | some n =>
    cases h4 : v4Key n with
    | some kb =>
      obtain ⟨key, bits⟩ := kb
      simp only [h4]
      exact sim_bind (B_rootsOrNilP ht) fun r r' hr => sim_bind (B_on32 (B_InsertP rfl f hr.1 key bits rfl)) fun x x' hx => B_newTreeP hx hr.2
    | none =>
      cases h6 : v6Pair n with
      | none => simp only [h4, h6]; exact ht
      | some k =>
        simp only [h4, h6]
        refine sim_bind (B_rootsOrNilP ht) fun r r' hr => sim_ite Iff.rfl (fun _ _ => ?_) fun _ _ => ?_
        · exact sim_bind (B_on64 (B_InsertP hvr_default f hr.2 k.msKey k.msBits (v := .user v) (v' := .user v) rfl)) fun x x' hx => B_newTreeP hr.1 hx
        · exact sim_bind (B_on64 (B_ExactMatchP f hr.2 k.msKey k.msBits)) fun w w' hw => sim_bind (B_subP hw) fun s s' hs =>
            sim_bind (B_on64 (B_InsertP hvr_default f hs k.lsKey k.lsBits (v := .user v) (v' := .user v) rfl)) fun s s' hs =>
            sim_bind (B_on64 (B_InsertP hvr_default f hr.2 k.msKey k.msBits (v := .sub s) (v' := .sub s') hs)) fun x x' hx => B_newTreeP hr.1 hx

theorem B_InplaceInsertNetP (ho : One ρ) (f : Nat) {t t' : Ptr} (ht : PR ρ t t') (n : Option IPNet) (v : V) : BI ρ (InplaceInsertNetP f t n v) (InplaceInsertNetP f t' n v) NTr := by
  unfold InplaceInsertNetP
  cases n with
  | none => exact trivial
  | some n =>
    cases h4 : v4Key n with
    | some kb =>
      obtain ⟨key, bits⟩ := kb
      simp only [h4]
      exact sim_bind (B_rootsP ht) fun r r' hr => sim_bind (B_on32 (B_InplaceInsertP rfl f hr.1 key bits rfl)) fun x x' hx => B_setRoot32 ht hx
    | none =>
      cases h6 : v6Pair n with
      | none => simp only [h4, h6]; exact trivial
      | some k =>
        simp only [h4, h6]
        refine sim_ite Iff.rfl (fun _ _ => ?_) fun _ _ => ?_
        · exact sim_bind (B_rootsP ht) fun r r' hr => sim_bind (B_on64 (B_InplaceInsertP hvr_default f hr.2 k.msKey k.msBits (v := .user v) (v' := .user v) rfl)) fun x x' hx => B_setRoot64 ht hx
        · refine sim_bind (B_rootsP ht) fun r r' hr => sim_bind (B_on64 (B_ExactMatchP f hr.2 k.msKey k.msBits)) fun w w' hw => ?_
          cases w <;> cases w'
          · exact sim_bind (B_on64 (B_InplaceInsertP hvr_default f pr_nil k.lsKey k.lsBits (v := .user v) (v' := .user v) rfl)) fun s s' hs => sim_bind (B_rootsP ht) fun r r' hr =>
              sim_bind (B_on64 (B_InplaceInsertP hvr_default f hr.2 k.msKey k.msBits (v := .sub s) (v' := .sub s') hs)) fun x x' hx => B_setRoot64 ht hx
          · exact hw.elim
          · exact hw.elim
          rename_i w w'
          refine sim_bind (B_subP (x := some w) (y := some w') hw) fun s s' hs => sim_bind (B_on64 (B_InplaceInsertP hvr_default f hs k.lsKey k.lsBits (v := .user v) (v' := .user v) rfl)) fun y y' hy =>
            sim_ite (hy.ne_iff ho hs) (fun _ _ => sim_bind (B_rootsP ht) fun r r' hr => sim_bind (B_on64 (B_InplaceInsertP hvr_default f hr.2 k.msKey k.msBits (v := .sub y) (v' := .sub y') hy)) fun x x' hx =>
              B_setRoot64 ht hx) fun _ _ => trivial

theorem B_DeleteByNetP (f : Nat) {t t' : Ptr} (ht : PR ρ t t') (n : Option IPNet) : BI ρ (DeleteByNetP f t n : Prog (IPD V) _) (DeleteByNetP f t' n) (NDelR ρ) := by
  unfold DeleteByNetP
  refine sim_ite ht.none_iff (fun _ _ => ⟨ht, rfl⟩) fun _ _ => ?_
  cases n with
  | none => exact ⟨ht, rfl⟩
  | some n =>
    cases h4 : v4Key n with
    | some kb =>
      obtain ⟨key, bits⟩ := kb
      simp only [h4]
      exact sim_bind (B_rootsP ht) fun r r' hr => sim_bind (B_on32 (B_DeleteP f hr.1 key bits)) fun x x' hx => sim_ite (by rw [hx.2]) (fun _ _ => sim_bind (B_newTreeP hx.1 hr.2) fun _ _ h => ⟨h, rfl⟩)
        fun _ _ => ⟨ht, rfl⟩
    | none =>
      cases h6 : v6Pair n with
      | none => simp only [h4, h6]; exact ⟨ht, rfl⟩
      | some k =>
        simp only [h4, h6]
        refine sim_bind (B_rootsP ht) fun r r' hr => sim_ite Iff.rfl (fun _ _ => ?_) fun _ _ => ?_
        · exact sim_bind (B_on64 (B_DeleteP f hr.2 k.msKey k.msBits)) fun x x' hx => sim_ite (by rw [hx.2]) (fun _ _ => sim_bind (B_newTreeP hr.1 hx.1) fun _ _ h => ⟨h, rfl⟩) fun _ _ => ⟨ht, rfl⟩
        · refine sim_bind (B_on64 (B_ExactMatchP f hr.2 k.msKey k.msBits)) fun w w' hw => ?_
          cases w <;> cases w'
          · exact ⟨ht, rfl⟩
          · exact hw.elim
          · exact hw.elim
          rename_i w w'
          refine sim_bind (B_subP (x := some w) (y := some w') hw) fun s s' hs => sim_bind (B_on64 (B_DeleteP f hs k.lsKey k.lsBits)) fun y y' hy =>
            sim_ite (by rw [hy.2]) (fun _ _ => sim_ite hy.1.none_iff (fun _ _ => ?_) fun _ _ => ?_) fun _ _ => ⟨ht, rfl⟩
          · exact sim_bind (B_on64 (B_DeleteP f hr.2 k.msKey k.msBits)) fun x x' hx => sim_bind (B_newTreeP hr.1 hx.1) fun _ _ h => ⟨h, rfl⟩
          · exact sim_bind (B_on64 (B_InsertP hvr_default f hr.2 k.msKey k.msBits (v := .sub y.1) (v' := .sub y'.1) hy.1)) fun x x' hx => sim_bind (B_newTreeP hr.1 hx) fun _ _ h => ⟨h, rfl⟩

end

theorem B_GetByNetP (f : Nat) {t t' : Ptr} (ht : PR ρ t t') (n : Option IPNet) : BI ρ (GetByNetP f t n : Prog (IPD V) _) (GetByNetP f t' n) (NOptR (HVR ρ)) := by
  unfold GetByNetP
  refine sim_ite ht.none_iff (fun _ _ => trivial) fun _ _ => ?_
  cases n with
  | none => exact trivial
  | some n =>
    cases h4 : v4Key n with
    | some kb =>
      obtain ⟨key, bits⟩ := kb
      simp only [h4]
      refine sim_bind (B_rootsP ht) fun r r' hr => sim_bind (B_on32 (B_MatchP f hr.1 key bits)) fun x x' hx => ?_
      cases x <;> cases x' <;> exact hx
    | none =>
      cases h6 : v6Pair n with
      | none => simp only [h4, h6]; exact trivial
      | some k =>
        simp only [h4, h6]
        refine sim_bind (B_rootsP ht) fun r r' hr => sim_bind (B_on64 (B_MatchP f hr.2 k.msKey k.msBits)) fun w w' hw => ?_
        cases w <;> cases w'
        · exact trivial
        · exact hw.elim
        · exact hw.elim
        rename_i w w'
        refine sim_ite Iff.rfl (fun _ _ => hw) fun _ _ => ?_
        cases w <;> cases w'
        · exact hw
        · exact hw.elim
        · exact hw.elim
        rename_i s s'
        refine sim_bind (B_on64 (B_MatchP f (n := s) (n' := s') hw k.lsKey k.lsBits)) fun y y' hy => ?_
        cases y <;> cases y'
        · exact sim_bind (B_rootsP ht) fun r r' hr => B_on64 (B_MatchP f hr.2 k.msKey 63)
        · exact hy.elim
        · exact hy.elim
        · exact hy

/-- Related pairs, in order. -/
def ILR (ρ : Addr → Addr → Prop) : List (IPNet × HV V) → List (IPNet × HV V) → Prop
  | [], [] => True
  | x :: l, y :: m => (x.1 = y.1 ∧ HVR ρ x.2 y.2) ∧ ILR ρ l m
  | _, _ => False

theorem ILR.append {l l' m m' : List (IPNet × HV V)} (h1 : ILR ρ l l') (h2 : ILR ρ m m') : ILR ρ (l ++ m) (l' ++ m') := by
  induction l generalizing l' with
  | nil =>
    cases l' with
    | nil => exact h2
    | cons _ _ => exact h1.elim
  | cons x l ih =>
    cases l' with
    | nil => exact h1.elim
    | cons y l' => exact ⟨h1.1, ih h1.2⟩

theorem ILR.map {w : Nat} {U : Type} {W : U → U → Prop} {g g' : ND w U → IPNet × HV V} (hg : ∀ c d, NDR W c d → (g c).1 = (g' d).1 ∧ HVR ρ (g c).2 (g' d).2) {l l' : List (ND w U)} (h : NLR W l l') :
    ILR ρ (l.map g) (l'.map g') := by
  induction l generalizing l' with
  | nil =>
    cases l' with
    | nil => exact h
    | cons _ _ => exact h.elim
  | cons x l ih =>
    cases l' with
    | nil => exact h.elim
    | cons y l' => exact ⟨hg _ _ h.1, ih h.2⟩

theorem B_enum6P (f : Nat) {l l' : List (ND 64 (HV V))} (h : NLR (HVR ρ) l l') : BI ρ (enum6P f l) (enum6P f l') (ILR ρ) := by
  induction l generalizing l' with
  | nil =>
    cases l' with
    | nil => exact trivial
    | cons _ _ => exact h.elim
  | cons x l ih =>
    cases l' with
    | nil => exact h.elim
    | cons y l' =>
      obtain ⟨xk, xb, xl, xv⟩ := x
      obtain ⟨yk, yb, yl, yv⟩ := y
      obtain ⟨⟨h1, h2, h3, h4⟩, h5⟩ := h
      cases h1; cases h2; cases h3
      cases xv <;> cases yv
      · exact sim_bind (ih h5) fun r r' hr => ⟨⟨rfl, h4⟩, hr⟩
      · exact h4.elim
      · exact h4.elim
      · refine sim_bind (B_on64 (B_EnumerateP f h4)) fun a a' ha => sim_bind (ih h5) fun r r' hr => sim_pure (ILR.append (ILR.map (fun c d hcd => ⟨?_, hcd.value⟩) ha) hr)
        simp only [key6s, hcd.key, hcd.bits]

theorem B_EnumerateTreeP (f : Nat) {t t' : Ptr} (ht : PR ρ t t') : BI ρ (EnumerateTreeP f t : Prog (IPD V) _) (EnumerateTreeP f t') (ILR ρ) :=
  sim_ite ht.none_iff (fun _ _ => trivial) fun _ _ => sim_bind (B_rootsP ht) fun r r' hr => sim_bind (B_on32 (B_EnumerateP f hr.1)) fun a a' ha =>
    sim_bind (B_on64 (B_EnumerateP f hr.2)) fun b b' hb => sim_bind (B_enum6P f hb) fun c c' hc => sim_pure (ILR.append (ILR.map (fun c d hcd => ⟨by simp only [key4, hcd.key, hcd.bits], hcd.value⟩) ha) hc)

/-- iptree. -/
def ipBlind [Inhabited V] (st : Bool) (f : Nat) : (ipImpl (V := V) st f).Blind where
  rootR := PR
  cellR := ICellR
  root_mono h hp := hp.mono h
  cell_mono h c := ⟨c.1.mono h, c.2.1.mono h, c.2.2.mono h⟩
  fresh_r ρ _ := sim_ite Iff.rfl (fun _ _ => B_newTreeP trivial trivial) fun _ _ => trivial
  fresh_ok h := by cases st <;> exact ⟨_, _, rfl⟩
  cow_r ρ _ o r q hr := by
    cases o with
    | insertNet n v => exact B_InsertNetP f hr n v
    | insertIP ip v => exact B_InsertNetP f hr _ v
    | deleteByNet n => exact sim_bind (B_DeleteByNetP f hr n) fun _ _ hx => hx.1
    | deleteByIP ip => exact sim_bind (B_DeleteByNetP f hr _) fun _ _ hx => hx.1
  inp_r ρ ho o r q hr := by
    cases o with
    | insertNet n v => exact sim_bind (B_InplaceInsertNetP ho f hr n v) fun _ _ _ => hr
    | insertIP ip v => exact sim_bind (B_InplaceInsertNetP ho f hr _ v) fun _ _ _ => hr
    | deleteByNet n => exact rfl
    | deleteByIP ip => exact rfl

end Verif.IPHeap
