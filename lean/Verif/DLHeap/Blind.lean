import Verif.RBHeap.Blind
import Verif.DLHeap.Confine

/-! # The programs of dltree do not look at the names of addresses -/

namespace Verif.DLHeap
open Verif Verif.Heap Verif.Heap.Prog Verif.RB Verif.RBHeap Verif.DL Verif.Domain

variable {V E : Type} {M : DLMem V E} {ρ : Addr → Addr → Prop} {W : V → V → Prop} {CE : Cell E → Cell E → Prop}

/-- Related pointers in the cells of `Tree`. -/
def TreeR (ρ : Addr → Addr → Prop) (c d : Cell Unit) : Prop := PR ρ c.c0 d.c0 ∧ PR ρ c.c1 d.c1

/-- What the relation `CE` of cells says of the cells of label trees. -/
structure DLRel (M : DLMem V E) (ρ : Addr → Addr → Prop) (W : V → V → Prop) (CE : Cell E → Cell E → Prop) : Prop where
  r1 : ∀ c d, CE c d → (M.kR.cell c = none ∧ M.kR.cell d = none) ∨ ∃ c' d', M.kR.cell c = some c' ∧ M.kR.cell d = some d' ∧ CellR ρ W c' d'
  r2 : ∀ c d, CellR ρ W c d → CE (c.map M.kR.inj) (d.map M.kR.inj)
  t1 : ∀ c d, CE c d → (M.kT.cell c = none ∧ M.kT.cell d = none) ∨ ∃ c' d', M.kT.cell c = some c' ∧ M.kT.cell d = some d' ∧ TreeR ρ c' d'
  t2 : ∀ c d, TreeR ρ c d → CE (c.map M.kT.inj) (d.map M.kT.inj)

variable (H : DLRel M ρ W CE)
include H

theorem B_rootP {t t' : Ptr} (ht : PR ρ t t') : (rootP M t).Sim ρ CE (PR ρ) (rootP M t') :=
  sim_lift H.t1 H.t2 (sim_load ht fun _ _ hc => hc.1)

theorem B_rootOrNilP {t t' : Ptr} (ht : PR ρ t t') : (rootOrNilP M t).Sim ρ CE (PR ρ) (rootOrNilP M t') :=
  sim_ite ht.not_none (fun _ _ => B_rootP H ht) fun _ _ => trivial

theorem B_newTreeP {r r' : Ptr} (hr : PR ρ r r') : (newTreeP M r).Sim ρ CE (PR ρ) (newTreeP M r') :=
  sim_lift H.t1 H.t2 (sim_bind (sim_new ⟨hr, trivial⟩) fun _ _ ha => ha)

theorem B_setRootP {t r t' r' : Ptr} (ht : PR ρ t t') (hr : PR ρ r r') : (setRootP M t r).Sim ρ CE Tr (setRootP M t' r') :=
  sim_lift H.t1 H.t2 (sim_upd ht fun _ _ hc => ⟨hr, hc.2⟩)

omit H in
theorem B_labelP (key : Bytes) : (labelP key : Prog E Bytes).Sim ρ CE Eq (labelP key) := by
  unfold labelP
  split
  · exact rfl
  · exact rfl

section
variable [Inhabited V] (hW : W default default) (ho : One ρ)
include hW ho

theorem B_RawInsertP (f : Nat) {t t' : Ptr} (ht : PR ρ t t') (key : Bytes) {v v' : V} (hv : W v v') : (RawInsertP M f t key v).Sim ρ CE (PR ρ) (RawInsertP M f t' key v') :=
  sim_bind (B_rootOrNilP H ht) fun _ _ hn => sim_bind (sim_lift H.r1 H.r2 (B_insertP hW ho cmpLabel f hn key hv)) fun _ _ hx => B_newTreeP H hx

theorem B_InsertP (f : Nat) {t t' : Ptr} (ht : PR ρ t t') (key : Bytes) {v v' : V} (hv : W v v') : (InsertP M f t key v).Sim ρ CE (PR ρ) (InsertP M f t' key v') :=
  sim_bind (B_rootOrNilP H ht) fun _ _ hn => sim_bind (B_labelP key) fun dl _ e => by
    cases e; exact sim_bind (sim_lift H.r1 H.r2 (B_insertP hW ho cmpLabel f hn dl hv)) fun _ _ hx => B_newTreeP H hx

theorem B_RawInplaceInsertP (f : Nat) {t t' : Ptr} (ht : PR ρ t t') (key : Bytes) {v v' : V} (hv : W v v') :
    (RawInplaceInsertP M f t key v).Sim ρ CE Tr (RawInplaceInsertP M f t' key v') :=
  sim_bind (B_rootP H ht) fun _ _ hn => sim_bind (sim_lift H.r1 H.r2 (B_inplaceInsertP hW ho cmpLabel f hn key hv)) fun _ _ hx => B_setRootP H ht hx

theorem B_InplaceInsertP (f : Nat) {t t' : Ptr} (ht : PR ρ t t') (key : Bytes) {v v' : V} (hv : W v v') :
    (InplaceInsertP M f t key v).Sim ρ CE Tr (InplaceInsertP M f t' key v') :=
  sim_bind (B_labelP key) fun dl _ e => by cases e; exact B_RawInplaceInsertP H hW ho f ht dl hv

theorem B_RawDeleteP (f : Nat) {t t' : Ptr} (ht : PR ρ t t') (key : Bytes) :
    (RawDeleteP M f t key).Sim ρ CE (fun x y => PR ρ x.1 y.1 ∧ x.2 = y.2) (RawDeleteP M f t' key) :=
  sim_ite ht.none_iff (fun _ _ => ⟨trivial, rfl⟩) fun _ _ => sim_bind (B_rootP H ht) fun _ _ hn => sim_bind (sim_lift H.r1 H.r2 (B_delP hW ho cmpLabel f hn key)) fun _ _ hx =>
    sim_bind (B_newTreeP H hx.1) fun _ _ ht' => ⟨ht', hx.2⟩

theorem B_DeleteP (f : Nat) {t t' : Ptr} (ht : PR ρ t t') (key : Bytes) :
    (DeleteP M f t key).Sim ρ CE (fun x y => PR ρ x.1 y.1 ∧ x.2 = y.2) (DeleteP M f t' key) :=
  sim_ite ht.none_iff (fun _ _ => ⟨trivial, rfl⟩) fun _ _ => sim_bind (B_labelP key) fun dl _ e => by cases e; exact B_RawDeleteP H hW ho f ht dl

end

theorem B_RawGetP (f : Nat) {t t' : Ptr} (ht : PR ρ t t') (key : Bytes) : (RawGetP M f t key).Sim ρ CE (OptR W) (RawGetP M f t' key) :=
  sim_ite ht.none_iff (fun _ _ => trivial) fun _ _ => sim_bind (B_rootP H ht) fun _ _ hn => sim_lift H.r1 H.r2 (B_getP cmpLabel f hn key)

theorem B_GetP (f : Nat) {t t' : Ptr} (ht : PR ρ t t') (key : Bytes) : (GetP M f t key).Sim ρ CE (OptR W) (GetP M f t' key) :=
  sim_ite ht.none_iff (fun _ _ => trivial) fun _ _ => sim_bind (B_labelP key) fun dl _ e => by cases e; exact B_RawGetP H f ht dl

theorem B_IsEmptyP {t t' : Ptr} (ht : PR ρ t t') : (IsEmptyP M t).Sim ρ CE Eq (IsEmptyP M t') :=
  sim_ite ht.none_iff (fun _ _ => rfl) fun _ _ => sim_bind (B_rootP H ht) fun _ _ hn => decide_eq_decide.2 hn.none_iff

theorem B_RawEnumerateP (f : Nat) {t t' : Ptr} (ht : PR ρ t t') : (RawEnumerateP M f t).Sim ρ CE (ListR W) (RawEnumerateP M f t') :=
  sim_ite ht.none_iff (fun _ _ => trivial) fun _ _ => sim_bind (B_rootP H ht) fun _ _ hn => sim_lift H.r1 H.r2 (B_enumerateP f hn)

omit H in
theorem humanL_rel {l l' : List (Bytes × V)} (h : ListR W l l') :
    (humanL l = none ∧ humanL l' = none) ∨ ∃ m m', humanL l = some m ∧ humanL l' = some m' ∧ ListR W m m' := by
  induction l generalizing l' with
  | nil =>
    cases l' with
    | nil => exact .inr ⟨[], [], rfl, rfl, trivial⟩
    | cons _ _ => exact h.elim
  | cons x l ih =>
    cases l' with
    | nil => exact h.elim
    | cons y l' =>
      obtain ⟨k, v⟩ := x
      obtain ⟨k', v'⟩ := y
      obtain ⟨e, hv, hl⟩ := h
      cases e
      simp only [humanL]
      cases MakeHumanReadableLabel k with
      | none => exact .inl ⟨rfl, rfl⟩
      | some k =>
        rcases ih hl with ⟨e1, e2⟩ | ⟨m, m', e1, e2, e3⟩
        · rw [e1, e2]; exact .inl ⟨rfl, rfl⟩
        · rw [e1, e2]; exact .inr ⟨_, _, rfl, rfl, rfl, hv, e3⟩

theorem B_EnumerateP (f : Nat) {t t' : Ptr} (ht : PR ρ t t') : (EnumerateP M f t).Sim ρ CE (ListR W) (EnumerateP M f t') :=
  sim_bind (B_RawEnumerateP H f ht) fun l l' hl => by
    rcases humanL_rel hl with ⟨e1, e2⟩ | ⟨m, m', e1, e2, e3⟩
    · rw [e1, e2]; exact rfl
    · rw [e1, e2]; exact e3

omit H

/-- Cells of the same type with the same contents and related pointers. -/
def LCellR (ρ : Addr → Addr → Prop) (c d : Cell (LD V)) : Prop := PR ρ c.c0 d.c0 ∧ PR ρ c.c1 d.c1 ∧ c.d = d.d

theorem lrel (ρ : Addr → Addr → Prop) : DLRel (lm (V := V)) ρ Eq (LCellR ρ) where
  r1 c d hc := by
    obtain ⟨c, x, y⟩ := c
    obtain ⟨d, x', y'⟩ := d
    obtain ⟨h1, h2, h3⟩ := hc
    cases h3
    cases c with
    | rb r => exact .inr ⟨⟨r, x, y⟩, ⟨r, x', y'⟩, rfl, rfl, h1, h2, rfl, rfl, rfl⟩
    | tree => exact .inl ⟨rfl, rfl⟩
  r2 c d hc := by
    obtain ⟨⟨k, v, r⟩, x, y⟩ := c
    obtain ⟨⟨k', v', r'⟩, x', y'⟩ := d
    obtain ⟨h1, h2, h3, h4, h5⟩ := hc
    cases h3; cases h4; cases h5
    exact ⟨h1, h2, rfl⟩
  t1 c d hc := by
    obtain ⟨c, x, y⟩ := c
    obtain ⟨d, x', y'⟩ := d
    obtain ⟨h1, h2, h3⟩ := hc
    cases h3
    cases c with
    | rb r => exact .inl ⟨rfl, rfl⟩
    | tree => exact .inr ⟨⟨(), x, y⟩, ⟨(), x', y'⟩, rfl, rfl, h1, h2⟩
  t2 c d hc := ⟨hc.1, hc.2, rfl⟩

/-- dltree. -/
def dlBlind [Inhabited V] (st : Bool) (f : Nat) : (dlImpl (V := V) st f).Blind where
  rootR := PR
  cellR := LCellR
  root_mono h hp := hp.mono h
  cell_mono h c := ⟨c.1.mono h, c.2.1.mono h, c.2.2⟩
  fresh_r ρ _ := sim_ite Iff.rfl (fun _ _ => B_newTreeP (lrel ρ) trivial) fun _ _ => trivial
  fresh_ok h := by cases st <;> exact ⟨_, _, rfl⟩
  cow_r ρ ho o r q hr := by
    cases o with
    | insert k v => exact B_InsertP (lrel ρ) rfl ho f hr k rfl
    | rawInsert k v => exact B_RawInsertP (lrel ρ) rfl ho f hr k rfl
    | delete k => exact sim_bind (B_DeleteP (lrel ρ) rfl ho f hr k) fun _ _ hx => hx.1
    | rawDelete k => exact sim_bind (B_RawDeleteP (lrel ρ) rfl ho f hr k) fun _ _ hx => hx.1
  inp_r ρ ho o r q hr := by
    cases o with
    | insert k v => exact sim_bind (B_InplaceInsertP (lrel ρ) rfl ho f hr k rfl) fun _ _ _ => hr
    | rawInsert k v => exact sim_bind (B_RawInplaceInsertP (lrel ρ) rfl ho f hr k rfl) fun _ _ _ => hr
    | delete k => exact rfl
    | rawDelete k => exact rfl

end Verif.DLHeap
