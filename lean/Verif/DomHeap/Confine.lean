import Verif.DLHeap.Confine
import Verif.DomHeap.History

/-! # The programs of domaintree stay within what the root leads to -/

namespace Verif.DomHeap
open Verif Verif.Heap Verif.Heap.Prog Verif.RB Verif.RBHeap Verif.DLHeap Verif.Domain Verif.DomTree

variable {V : Type} {A : Addr → Prop}

/-- The pointers of a cell, also those stored as values of a label tree, lead to `A`. -/
def DCell (A : Addr → Prop) (c : Cell (DD V)) : Prop :=
  InA A c.c0 ∧ InA A c.c1 ∧ ∀ d, c.d = .rb d → InA A d.value

theorem dcells (A : Addr → Prop) : DLCells (dm (V := V)) A (InA A) (DCell A) where
  r1 c d hc hd := by rw [Kind.map_cell _ hd] at hc; exact ⟨hc.1, hc.2.1, hc.2.2 _ rfl⟩
  r2 d hd := ⟨hd.1, hd.2.1, fun e he => by cases he; exact hd.2.2⟩
  t1 c d hc hd := by rw [Kind.map_cell _ hd] at hc; exact ⟨hc.1, hc.2.1⟩
  t2 d hd := ⟨hd.1, hd.2, fun e he => by cases he⟩

theorem n1 (c : Cell (DD V)) (d : Cell (Option V)) (hc : DCell A c) (hd : kN.cell c = some d) : InA A d.c0 ∧ InA A d.c1 := by
  rw [Kind.map_cell _ hd] at hc; exact ⟨hc.1, hc.2.1⟩
theorem n2 (d : Cell (Option V)) (hd : InA A d.c0 ∧ InA A d.c1) : DCell A (d.map kN.inj) := ⟨hd.1, hd.2, fun e he => by cases he⟩

abbrev SD (A : Addr → Prop) {α : Type} (p : Prog (DD V) α) (P : α → Prop) : Prop := p.Stays A (DCell A) P

theorem S_nodeP {n : Ptr} (hn : InA A n) : SD A (nodeP n : Prog (DD V) _) fun x => InA A x.2 := stays_lift n1 n2 (stays_load hn fun _ hc => hc.1)
theorem S_newNodeP {br : Ptr} (hb : InA A br) (val : Option V) : SD A (newNodeP br val) (InA A) :=
  stays_lift n1 n2 (stays_bind (stays_new ⟨hb, InA.none⟩) fun _ ha => InA.some ha)
theorem S_setBranchesP {n t : Ptr} (hn : InA A n) (ht : InA A t) : SD A (setBranchesP n t : Prog (DD V) _) fun _ => True :=
  stays_lift n1 n2 (stays_upd hn fun _ hc => ⟨ht, hc.2⟩)
theorem S_setValP {n : Ptr} (hn : InA A n) (v : V) : SD A (setValP n v) fun _ => True := stays_lift n1 n2 (stays_upd hn fun _ hc => hc)
theorem S_assertP {item : Ptr} (hi : InA A item) : SD A (assertP item : Prog (DD V) _) (InA A) := by
  cases item with
  | none => trivial
  | some a => exact hi
theorem S_copyP {n : Ptr} (hn : InA A n) : SD A (copyP n : Prog (DD V) _) (InA A) :=
  stays_ite (fun _ => S_newNodeP InA.none _) fun _ => stays_bind (S_nodeP hn) fun _ hx => S_newNodeP hx _
theorem S_setBranchP (f : Nat) {n : Ptr} (hn : InA A n) (label : Bytes) {next : Ptr} (hx : InA A next) : SD A (setBranchP f n label next : Prog (DD V) _) fun _ => True :=
  stays_bind (S_nodeP hn) fun _ hb => stays_bind (S_RawInsertP (dcells A) InA.none f hb label hx) fun _ ht => S_setBranchesP hn ht
theorem S_delBranchP (f : Nat) {n : Ptr} (hn : InA A n) (label : Bytes) : SD A (delBranchP f n label : Prog (DD V) _) fun _ => True :=
  stays_bind (S_nodeP hn) fun _ hb => stays_bind (S_RawDeleteP (dcells A) InA.none f hb label) fun _ ht => S_setBranchesP hn ht

theorem S_getLabelsLoopP {σ E : Type} {P : σ → Prop} {f : σ → Bytes → Prog (DD V) (σ × Option E)} (hf : ∀ st l, P st → SD A (f st l) fun x => P x.1) (c : Bytes) (fuel off : Nat)
    {st : σ} (hs : P st) : SD A (getLabelsLoopP f c fuel off st) fun x => P x.1 := by
  induction fuel generalizing off st with
  | zero => trivial
  | succ fuel ih =>
    unfold getLabelsLoopP
    refine stays_ite (fun _ => ?_) fun _ => hs
    dsimp only
    refine stays_ite (fun _ => trivial) fun _ => stays_bind (hf _ _ hs) fun x hx => ?_
    split
    · exact hx
    · exact ih _ hx

theorem S_GetLabelsP {σ E : Type} {P : σ → Prop} {f : σ → Bytes → Prog (DD V) (σ × Option E)} (hf : ∀ st l, P st → SD A (f st l) fun x => P x.1) (d : Name) {st : σ} (hs : P st) :
    SD A (GetLabelsP d f st) fun x => P x.1 := S_getLabelsLoopP hf _ _ _ hs

theorem S_nextP {item : Option Ptr} (hi : ∀ v, item = some v → InA A v) : SD A (nextP item : Prog (DD V) _) (InA A) := by
  cases item with
  | none => exact S_newNodeP InA.none _
  | some v => exact stays_bind (S_assertP (hi v rfl)) fun _ hx => S_copyP hx

theorem S_insertStepP (f : Nat) (n : Ptr) (label : Bytes) (hn : InA A n) : SD A (insertStepP f n label : Prog (DD V) _) fun x => InA A x.1 :=
  stays_bind (S_nodeP hn) fun _ hb => stays_bind (S_RawGetP (dcells A) f hb label) fun _ hi => stays_bind (S_nextP hi) fun _ hx =>
    stays_bind (S_setBranchP f hn label hx) fun _ _ => hx

theorem S_InsertP (f : Nat) {n : Ptr} (hn : InA A n) (d : Name) (v : V) : SD A (InsertP f n d v) (InA A) :=
  stays_bind (S_copyP hn) fun _ hr => stays_bind (S_GetLabelsP (fun st l hs => S_insertStepP f st l hs) d hr) fun _ hx => stays_bind (S_setValP hx v) fun _ _ => hr

theorem S_inplaceStepP (f : Nat) (n : Ptr) (label : Bytes) (hn : InA A n) : SD A (inplaceStepP f n label : Prog (DD V) _) fun x => InA A x.1 := by
  refine stays_bind (S_nodeP hn) fun x hb => stays_bind (S_RawGetP (dcells A) f hb label) fun item hi => ?_
  cases item with
  | some v => exact stays_bind (S_assertP (hi v rfl)) fun _ hx => hx
  | none =>
    exact stays_bind (S_newTreeP (dcells A) InA.none) fun _ ht => stays_bind (S_newNodeP ht _) fun _ hx => stays_bind (S_nodeP hn) fun _ hb =>
      stays_bind (S_RawInplaceInsertP (dcells A) InA.none f hb label hx) fun _ _ => hx

theorem S_ensureBranchesP {n : Ptr} (hn : InA A n) : SD A (ensureBranchesP n : Prog (DD V) _) fun _ => True :=
  stays_bind (S_nodeP hn) fun _ _ => stays_ite (fun _ => stays_bind (S_newTreeP (dcells A) InA.none) fun _ ht => S_setBranchesP hn ht) fun _ => trivial

theorem S_InplaceInsertP (f : Nat) {n : Ptr} (hn : InA A n) (d : Name) (v : V) : SD A (InplaceInsertP f n d v) fun _ => True :=
  stays_bind (S_ensureBranchesP hn) fun _ _ => stays_bind (S_GetLabelsP (fun st l hs => S_inplaceStepP f st l hs) d hn) fun _ hx => S_setValP hx v

/-- The nodes of a branch lead to `A`. -/
def BrIn (A : Addr → Prop) (b : List Bytes × Ptr × List Ptr) : Prop := InA A b.2.1 ∧ ∀ p ∈ b.2.2, InA A p

theorem S_branchStepP (f : Nat) (st : List Bytes × Ptr × List Ptr) (label : Bytes) (hs : BrIn A st) : SD A (branchStepP f st label : Prog (DD V) _) fun x => BrIn A x.1 := by
  refine stays_bind (S_nodeP hs.1) fun x hb => stays_bind (S_RawGetP (dcells A) f hb label) fun item hi => ?_
  cases item with
  | none => exact hs
  | some v =>
    refine stays_bind (S_assertP (hi v rfl)) fun n hn => stays_ite (fun _ => trivial) fun _ => ⟨hn, fun p hp => ?_⟩
    rcases List.mem_cons.1 hp with rfl | hp
    · exact hs.1
    · exact hs.2 p hp

theorem S_getBranchP (f : Nat) {n : Ptr} (hn : InA A n) (d : Name) : SD A (getBranchP f n d : Prog (DD V) _) fun r => ∀ b, r = some b → BrIn A b := by
  refine stays_bind (S_GetLabelsP (P := BrIn A) (fun st l hs => S_branchStepP f st l hs) d ⟨hn, fun p hp => by cases hp⟩) fun x hx => ?_
  split
  · exact fun b hb => by cases hb
  · exact fun b hb => by cases hb; exact hx

theorem S_emptyP {n : Ptr} (hn : InA A n) : SD A (emptyP n : Prog (DD V) _) fun _ => True :=
  stays_bind (S_nodeP hn) fun _ hb => stays_ite (fun _ => S_IsEmptyP (dcells A) hb) fun _ => trivial

theorem S_relinkP (f : Nat) {n p : Ptr} (hn : InA A n) (label : Bytes) (hp : InA A p) : SD A (relinkP f n label p : Prog (DD V) _) fun _ => True :=
  stays_bind (S_emptyP hn) fun _ _ => stays_ite (fun _ => S_delBranchP f hp label) fun _ => S_setBranchP f hp label hn

theorem S_copyBranchP (f : Nat) (ls : List Bytes) {n : Ptr} (hn : InA A n) {ps : List Ptr} (hp : ∀ p ∈ ps, InA A p) : SD A (copyBranchP f n ls ps : Prog (DD V) _) (InA A) := by
  induction ls generalizing n ps with
  | nil => cases ps <;> exact hn
  | cons l ls ih =>
    cases ps with
    | nil => exact hn
    | cons p ps =>
      exact stays_bind (S_copyP (hp p List.mem_cons_self)) fun p' hp' => stays_bind (S_relinkP f hn l hp') fun _ _ => ih hp' fun q hq => hp q (List.mem_cons_of_mem _ hq)

theorem S_noneBelowP {ni n : Ptr} (h1 : InA A ni) (h2 : InA A n) : SD A (noneBelowP ni n : Prog (DD V) _) fun _ => True :=
  stays_bind (S_nodeP h1) fun _ _ => stays_ite (fun _ => stays_bind (S_nodeP h2) fun _ hb => S_IsEmptyP (dcells A) hb) fun _ => trivial

theorem S_dropBranchP (f : Nat) (ls : List Bytes) {ps : List Ptr} (hp : ∀ p ∈ ps, InA A p) : SD A (dropBranchP f ls ps : Prog (DD V) _) (InA A) := by
  cases ls with
  | nil => cases ps <;> exact S_newNodeP InA.none _
  | cons l ls =>
    cases ps with
    | nil => exact S_newNodeP InA.none _
    | cons p ps =>
      exact stays_bind (S_copyP (hp p List.mem_cons_self)) fun c hc => stays_bind (S_delBranchP f hc l) fun _ _ => S_copyBranchP f ls hc fun q hq => hp q (List.mem_cons_of_mem _ hq)

theorem S_DeleteSubdomainsP (f : Nat) {n : Ptr} (hn : InA A n) (d : Name) : SD A (DeleteSubdomainsP f n d : Prog (DD V) _) fun x => InA A x.1 := by
  refine stays_ite (fun _ => InA.none) fun _ => stays_bind (S_getBranchP f hn d) fun b hb => ?_
  match b, hb with
  | none, _ => exact hn
  | some (labels, ni, nodes), hb =>
    have h := hb _ rfl
    exact stays_bind (S_noneBelowP h.1 hn) fun _ _ => stays_ite (fun _ => hn) fun _ => stays_bind (S_dropBranchP f labels h.2) fun _ hr => hr

theorem S_clearP (f : Nat) {br : Ptr} (hb : InA A br) (label : Bytes) {c : Ptr} (hc : InA A c) : SD A (clearP f br label c : Prog (DD V) _) fun _ => True :=
  stays_bind (S_IsEmptyP (dcells A) hb) fun _ _ => stays_ite (fun _ => S_delBranchP f hc label) fun _ => stays_bind (S_newNodeP hb _) fun _ hq => S_setBranchP f hc label hq

theorem S_clearBranchP (f : Nat) {br : Ptr} (hb : InA A br) (ls : List Bytes) {ps : List Ptr} (hp : ∀ p ∈ ps, InA A p) : SD A (clearBranchP f br ls ps : Prog (DD V) _) (InA A) := by
  have last : SD A (do
      let e ← IsEmptyP dm br
      if e then newNodeP none none else newNodeP br none : Prog (DD V) Ptr) (InA A) :=
    stays_bind (S_IsEmptyP (dcells A) hb) fun _ _ => stays_ite (fun _ => S_newNodeP InA.none _) fun _ => S_newNodeP hb _
  cases ls with
  | nil => cases ps <;> exact last
  | cons l ls =>
    cases ps with
    | nil => exact last
    | cons p ps =>
      exact stays_bind (S_copyP (hp p List.mem_cons_self)) fun c hc => stays_bind (S_clearP f hb l hc) fun _ _ => S_copyBranchP f ls hc fun q hq => hp q (List.mem_cons_of_mem _ hq)

theorem S_DeleteP (f : Nat) {n : Ptr} (hn : InA A n) (d : Name) : SD A (DeleteP f n d : Prog (DD V) _) fun x => InA A x.1 := by
  refine stays_ite (fun _ => InA.none) fun _ => stays_bind (S_getBranchP f hn d) fun b hb => ?_
  match b, hb with
  | none, _ => exact hn
  | some (labels, ni, nodes), hb =>
    have h := hb _ rfl
    exact stays_bind (S_nodeP h.1) fun _ hx => stays_ite (fun _ => hn) fun _ => stays_bind (S_clearBranchP f hx labels h.2) fun _ hr => hr

/-- domaintree. -/
def domConfined (st : Bool) (f : Nat) : (domImpl (V := V) st f).Confined where
  rootIn := InA
  cellIn := DCell
  root_mono h hp := hp.mono h
  cell_mono h c := ⟨c.1.mono h, c.2.1.mono h, fun d hd => (c.2.2 d hd).mono h⟩
  fresh_in S := stays_ite (fun _ => S_newNodeP InA.none _) fun _ => InA.none
  cow_in S o r hr := by
    cases o with
    | insert d v => exact S_InsertP f hr d v
    | delete d => exact stays_bind (S_DeleteP f hr d) fun _ hx => hx
    | deleteSub d => exact stays_bind (S_DeleteSubdomainsP f hr d) fun _ hx => hx
    | inplace d v => trivial
  inp_in S o r hr := by
    cases o with
    | inplace d v => exact stays_bind (S_InplaceInsertP f hr d v) fun _ _ => hr
    | insert d v => trivial
    | delete d => trivial
    | deleteSub d => trivial

end Verif.DomHeap
