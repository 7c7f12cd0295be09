import Verif.RBHeap.Confine
import Verif.DLHeap.History

/-! # The programs of dltree stay within what the root leads to -/

namespace Verif.DLHeap
open Verif Verif.Heap Verif.Heap.Prog Verif.RB Verif.RBHeap Verif.DL Verif.Domain

variable {V E : Type} {M : DLMem V E} {A : Addr → Prop} {U : V → Prop} {CE : Cell E → Prop}

/-- What the property `CE` of cells says of the cells of label trees. -/
structure DLCells (M : DLMem V E) (A : Addr → Prop) (U : V → Prop) (CE : Cell E → Prop) : Prop where
  r1 : ∀ c d, CE c → M.kR.cell c = some d → CellOf A (fun _ => U) d
  r2 : ∀ d, CellOf A (fun _ => U) d → CE (d.map M.kR.inj)
  t1 : ∀ c d, CE c → M.kT.cell c = some d → InA A d.c0 ∧ InA A d.c1
  t2 : ∀ d : Cell Unit, InA A d.c0 ∧ InA A d.c1 → CE (d.map M.kT.inj)

variable (H : DLCells M A U CE)
include H

theorem S_rootP {t : Ptr} (ht : InA A t) : (rootP M t).Stays A CE (InA A) :=
  stays_lift H.t1 H.t2 (stays_load ht fun _ hc => hc.1)

theorem S_rootOrNilP {t : Ptr} (ht : InA A t) : (rootOrNilP M t).Stays A CE (InA A) := stays_ite (fun _ => S_rootP H ht) fun _ => InA.none

theorem S_newTreeP {r : Ptr} (hr : InA A r) : (newTreeP M r).Stays A CE (InA A) :=
  stays_lift H.t1 H.t2 (stays_bind (stays_new ⟨hr, InA.none⟩) fun _ ha => InA.some ha)

theorem S_setRootP {t r : Ptr} (ht : InA A t) (hr : InA A r) : (setRootP M t r).Stays A CE fun _ => True :=
  stays_lift H.t1 H.t2 (stays_upd ht fun _ hc => ⟨hr, hc.2⟩)

omit H in
theorem S_labelP (key : Bytes) : (labelP key : Prog E Bytes).Stays A CE fun _ => True := by
  unfold labelP
  split
  · trivial
  · trivial

section
variable [Inhabited V] (hU : U default)
include hU

theorem S_RawInsertP (f : Nat) {t : Ptr} (ht : InA A t) (key : Bytes) {value : V} (hv : U value) : (RawInsertP M f t key value).Stays A CE (InA A) :=
  stays_bind (S_rootOrNilP H ht) fun _ hn => stays_bind (stays_lift H.r1 H.r2 (S_insertP (fun _ => hU) cmpLabel f hn key fun _ => hv)) fun _ hx => S_newTreeP H hx

theorem S_InsertP (f : Nat) {t : Ptr} (ht : InA A t) (key : Bytes) {value : V} (hv : U value) : (InsertP M f t key value).Stays A CE (InA A) :=
  stays_bind (S_rootOrNilP H ht) fun _ hn => stays_bind (S_labelP key) fun dl _ => stays_bind (stays_lift H.r1 H.r2 (S_insertP (fun _ => hU) cmpLabel f hn dl fun _ => hv)) fun _ hx => S_newTreeP H hx

theorem S_RawInplaceInsertP (f : Nat) {t : Ptr} (ht : InA A t) (key : Bytes) {value : V} (hv : U value) : (RawInplaceInsertP M f t key value).Stays A CE fun _ => True :=
  stays_bind (S_rootP H ht) fun _ hn => stays_bind (stays_lift H.r1 H.r2 (S_inplaceInsertP (fun _ => hU) cmpLabel f hn key fun _ => hv)) fun _ hx => S_setRootP H ht hx

theorem S_InplaceInsertP (f : Nat) {t : Ptr} (ht : InA A t) (key : Bytes) {value : V} (hv : U value) : (InplaceInsertP M f t key value).Stays A CE fun _ => True :=
  stays_bind (S_labelP key) fun dl _ => S_RawInplaceInsertP H hU f ht dl hv

theorem S_RawDeleteP (f : Nat) {t : Ptr} (ht : InA A t) (key : Bytes) : (RawDeleteP M f t key).Stays A CE fun x => InA A x.1 :=
  stays_ite (fun _ => InA.none) fun _ => stays_bind (S_rootP H ht) fun _ hn => stays_bind (stays_lift H.r1 H.r2 (S_delP (fun _ => hU) (fun _ _ _ h => h) cmpLabel f hn key)) fun _ hx =>
    stays_bind (S_newTreeP H hx) fun _ ht' => ht'

theorem S_DeleteP (f : Nat) {t : Ptr} (ht : InA A t) (key : Bytes) : (DeleteP M f t key).Stays A CE fun x => InA A x.1 :=
  stays_ite (fun _ => InA.none) fun _ => stays_bind (S_labelP key) fun dl _ => S_RawDeleteP H hU f ht dl

end

theorem S_RawGetP (f : Nat) {t : Ptr} (ht : InA A t) (key : Bytes) : (RawGetP M f t key).Stays A CE fun r => ∀ v, r = some v → U v :=
  stays_ite (fun _ _ hv => by cases hv) fun _ => stays_bind (S_rootP H ht) fun _ hn => stays_lift H.r1 H.r2 (stays_mono (S_getP cmpLabel f hn key) fun _ h v hv => (h v hv).elim fun _ x => x.2)

theorem S_IsEmptyP {t : Ptr} (ht : InA A t) : (IsEmptyP M t).Stays A CE fun _ => True :=
  stays_ite (fun _ => trivial) fun _ => stays_bind (S_rootP H ht) fun _ _ => trivial

omit H

/-- The pointers of a cell lead to `A`. -/
def LCell (A : Addr → Prop) (c : Cell (LD V)) : Prop := InA A c.c0 ∧ InA A c.c1

theorem lcells (A : Addr → Prop) : DLCells (lm (V := V)) A (fun _ => True) (LCell A) where
  r1 c d hc hd := by rw [Kind.map_cell _ hd] at hc; exact ⟨hc.1, hc.2, trivial⟩
  r2 d hd := ⟨hd.1, hd.2.1⟩
  t1 c d hc hd := by rw [Kind.map_cell _ hd] at hc; exact hc
  t2 d hd := hd

/-- dltree. -/
def dlConfined [Inhabited V] (st : Bool) (f : Nat) : (dlImpl (V := V) st f).Confined where
  rootIn := InA
  cellIn := LCell
  root_mono h hp := hp.mono h
  cell_mono h c := ⟨c.1.mono h, c.2.mono h⟩
  fresh_in S := stays_ite (fun _ => S_newTreeP (lcells S) InA.none) fun _ => InA.none
  cow_in S o r hr := by
    cases o with
    | insert k v => exact S_InsertP (lcells S) trivial f hr k trivial
    | rawInsert k v => exact S_RawInsertP (lcells S) trivial f hr k trivial
    | delete k => exact stays_bind (S_DeleteP (lcells S) trivial f hr k) fun _ hx => hx
    | rawDelete k => exact stays_bind (S_RawDeleteP (lcells S) trivial f hr k) fun _ hx => hx
  inp_in S o r hr := by
    cases o with
    | insert k v => exact stays_bind (S_InplaceInsertP (lcells S) trivial f hr k trivial) fun _ _ => hr
    | rawInsert k v => exact stays_bind (S_RawInplaceInsertP (lcells S) trivial f hr k trivial) fun _ _ => hr
    | delete k => trivial
    | rawDelete k => trivial

end Verif.DLHeap
