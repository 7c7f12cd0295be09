import Verif.DLHeap.Blind
import Verif.DomHeap.Confine

/-! # The programs of domaintree do not look at the names of addresses -/

namespace Verif.DomHeap
open Verif Verif.Heap Verif.Heap.Prog Verif.RB Verif.RBHeap Verif.DLHeap Verif.Domain Verif.DomTree

variable {V : Type} {ρ : Addr → Addr → Prop}

theorem pr_nil : PR ρ none none := trivial

/-- The same contents, with related pointers as values of label trees. -/
def DR (ρ : Addr → Addr → Prop) : DD V → DD V → Prop
  | .rb d, .rb e => d.key = e.key ∧ d.red = e.red ∧ PR ρ d.value e.value
  | .tree, .tree => True
  | .node v, .node w => v = w
  | _, _ => False

/-- Cells of the same type with the same contents and related pointers. -/
def DCellR (ρ : Addr → Addr → Prop) (c d : Cell (DD V)) : Prop := PR ρ c.c0 d.c0 ∧ PR ρ c.c1 d.c1 ∧ DR ρ c.d d.d

theorem DR.mono {σ : Addr → Addr → Prop} (h : ∀ a b, ρ a b → σ a b) {c d : DD V} (hc : DR ρ c d) : DR σ c d := by
  cases c <;> cases d <;> first | exact hc | exact ⟨hc.1, hc.2.1, hc.2.2.mono h⟩

theorem drel (ρ : Addr → Addr → Prop) : DLRel (dm (V := V)) ρ (PR ρ) (DCellR ρ) where
  r1 c d hc := by
    obtain ⟨c, x, y⟩ := c
    obtain ⟨d, x', y'⟩ := d
    obtain ⟨h1, h2, h3⟩ := hc
    cases c <;> cases d <;> first | exact h3.elim | exact .inl ⟨rfl, rfl⟩ | exact .inr ⟨_, _, rfl, rfl, h1, h2, h3.1, h3.2.1, h3.2.2⟩
  r2 c d hc := ⟨hc.c0, hc.c1, hc.key, hc.red, hc.value⟩
  t1 c d hc := by
    obtain ⟨c, x, y⟩ := c
    obtain ⟨d, x', y'⟩ := d
    obtain ⟨h1, h2, h3⟩ := hc
    cases c <;> cases d <;> first | exact h3.elim | exact .inl ⟨rfl, rfl⟩ | exact .inr ⟨_, _, rfl, rfl, h1, h2⟩
  t2 c d hc := ⟨hc.1, hc.2, trivial⟩

/-- The same value and related pointers in the cells of `Node`. -/
def NodeR (ρ : Addr → Addr → Prop) (c d : Cell (Option V)) : Prop := PR ρ c.c0 d.c0 ∧ PR ρ c.c1 d.c1 ∧ c.d = d.d

theorem bn1 (c d : Cell (DD V)) (hc : DCellR ρ c d) :
    (kN.cell c = none ∧ kN.cell d = none) ∨ ∃ c' d', kN.cell c = some c' ∧ kN.cell d = some d' ∧ NodeR ρ c' d' := by
  obtain ⟨c, x, y⟩ := c
  obtain ⟨d, x', y'⟩ := d
  obtain ⟨h1, h2, h3⟩ := hc
  cases c <;> cases d <;> first | exact h3.elim | exact .inl ⟨rfl, rfl⟩ | exact .inr ⟨_, _, rfl, rfl, h1, h2, h3⟩
theorem bn2 (c d : Cell (Option V)) (hc : NodeR ρ c d) : DCellR ρ (c.map kN.inj) (d.map kN.inj) := ⟨hc.1, hc.2.1, hc.2.2⟩

abbrev BD (ρ : Addr → Addr → Prop) {α β : Type} (p : Prog (DD V) α) (q : Prog (DD V) β) (P : α → β → Prop) : Prop := p.Sim ρ (DCellR ρ) P q

/-- The fields of related nodes. -/
def FR (ρ : Addr → Addr → Prop) (x y : Option V × Ptr) : Prop := x.1 = y.1 ∧ PR ρ x.2 y.2

theorem B_nodeP {n n' : Ptr} (hn : PR ρ n n') : BD ρ (nodeP n : Prog (DD V) _) (nodeP n') (FR ρ) := sim_lift bn1 bn2 (sim_load hn fun _ _ hc => ⟨hc.2.2, hc.1⟩)
theorem B_newNodeP {br br' : Ptr} (hb : PR ρ br br') {v v' : Option V} (hv : v = v') : BD ρ (newNodeP br v) (newNodeP br' v') (PR ρ) :=
  sim_lift bn1 bn2 (sim_bind (sim_new ⟨hb, trivial, hv⟩) fun _ _ ha => ha)
theorem B_setBranchesP {n t n' t' : Ptr} (hn : PR ρ n n') (ht : PR ρ t t') : BD ρ (setBranchesP n t : Prog (DD V) _) (setBranchesP n' t') Tr :=
  sim_lift bn1 bn2 (sim_upd hn fun _ _ hc => ⟨ht, hc.2⟩)
theorem B_setValP {n n' : Ptr} (hn : PR ρ n n') (v : V) : BD ρ (setValP n v) (setValP n' v) Tr := sim_lift bn1 bn2 (sim_upd hn fun _ _ hc => ⟨hc.1, hc.2.1, rfl⟩)
theorem B_assertP {i i' : Ptr} (hi : PR ρ i i') : BD ρ (assertP i : Prog (DD V) _) (assertP i') (PR ρ) := by
  cases i <;> cases i'
  · exact rfl
  · exact hi.elim
  · exact hi.elim
  · exact hi
theorem B_copyP {n n' : Ptr} (hn : PR ρ n n') : BD ρ (copyP n : Prog (DD V) _) (copyP n') (PR ρ) :=
  sim_ite hn.none_iff (fun _ _ => B_newNodeP pr_nil rfl) fun _ _ => sim_bind (B_nodeP hn) fun _ _ hx => B_newNodeP hx.2 hx.1
theorem B_setBranchP (ho : One ρ) (f : Nat) {n n' : Ptr} (hn : PR ρ n n') (label : Bytes) {next next' : Ptr} (hx : PR ρ next next') :
    BD ρ (setBranchP f n label next : Prog (DD V) _) (setBranchP f n' label next') Tr :=
  sim_bind (B_nodeP hn) fun _ _ hb => sim_bind (B_RawInsertP (drel ρ) pr_nil ho f hb.2 label hx) fun _ _ ht => B_setBranchesP hn ht
theorem B_delBranchP (ho : One ρ) (f : Nat) {n n' : Ptr} (hn : PR ρ n n') (label : Bytes) : BD ρ (delBranchP f n label : Prog (DD V) _) (delBranchP f n' label) Tr :=
  sim_bind (B_nodeP hn) fun _ _ hb => sim_bind (B_RawDeleteP (drel ρ) pr_nil ho f hb.2 label) fun _ _ ht => B_setBranchesP hn ht.1

/-- Related states, the same error. -/
def SR {σ E : Type} (P : σ → σ → Prop) (x y : σ × Option E) : Prop := P x.1 y.1 ∧ x.2 = y.2

theorem B_getLabelsLoopP {σ E : Type} {P : σ → σ → Prop} {f : σ → Bytes → Prog (DD V) (σ × Option E)} (hf : ∀ s t l, P s t → BD ρ (f s l) (f t l) (SR P))
    (c : Bytes) (fuel off : Nat) {s t : σ} (hs : P s t) : BD ρ (getLabelsLoopP f c fuel off s) (getLabelsLoopP f c fuel off t) (SR P) := by
  induction fuel generalizing off s t with
  | zero => exact rfl
  | succ fuel ih =>
    unfold getLabelsLoopP
    refine sim_ite Iff.rfl (fun _ _ => ?_) fun _ _ => ⟨hs, rfl⟩
    dsimp only
    refine sim_ite Iff.rfl (fun _ _ => rfl) fun _ _ => sim_bind (hf _ _ _ hs) fun x y hx => ?_
    obtain ⟨x1, x2⟩ := x
    obtain ⟨y1, y2⟩ := y
    obtain ⟨h1, h2⟩ := hx
    cases h2
    cases x2 with
    | some e => exact ⟨h1, rfl⟩
    | none => exact ih _ h1

theorem B_GetLabelsP {σ E : Type} {P : σ → σ → Prop} {f : σ → Bytes → Prog (DD V) (σ × Option E)} (hf : ∀ s t l, P s t → BD ρ (f s l) (f t l) (SR P))
    (d : Name) {s t : σ} (hs : P s t) : BD ρ (GetLabelsP d f s) (GetLabelsP d f t) (SR P) := B_getLabelsLoopP hf _ _ _ hs

theorem B_nextP {i i' : Option Ptr} (hi : OptR (PR ρ) i i') : BD ρ (nextP i : Prog (DD V) _) (nextP i') (PR ρ) := by
  cases i <;> cases i'
  · exact B_newNodeP pr_nil rfl
  · exact hi.elim
  · exact hi.elim
  · exact sim_bind (B_assertP hi) fun _ _ hx => B_copyP hx

theorem B_insertStepP (ho : One ρ) (f : Nat) (n n' : Ptr) (label : Bytes) (hn : PR ρ n n') :
    BD ρ (insertStepP f n label : Prog (DD V) _) (insertStepP f n' label) (SR (PR ρ)) :=
  sim_bind (B_nodeP hn) fun _ _ hb => sim_bind (B_RawGetP (drel ρ) f hb.2 label) fun _ _ hi => sim_bind (B_nextP hi) fun _ _ hx =>
    sim_bind (B_setBranchP ho f hn label hx) fun _ _ _ => ⟨hx, rfl⟩

theorem B_InsertP (ho : One ρ) (f : Nat) {n n' : Ptr} (hn : PR ρ n n') (d : Name) (v : V) : BD ρ (InsertP f n d v) (InsertP f n' d v) (PR ρ) :=
  sim_bind (B_copyP hn) fun _ _ hr => sim_bind (B_GetLabelsP (fun s t l hs => B_insertStepP ho f s t l hs) d hr) fun _ _ hx => sim_bind (B_setValP hx.1 v) fun _ _ _ => hr

theorem B_inplaceStepP (ho : One ρ) (f : Nat) (n n' : Ptr) (label : Bytes) (hn : PR ρ n n') :
    BD ρ (inplaceStepP f n label : Prog (DD V) _) (inplaceStepP f n' label) (SR (PR ρ)) := by
  refine sim_bind (B_nodeP hn) fun x x' hb => sim_bind (B_RawGetP (drel ρ) f hb.2 label) fun i i' hi => ?_
  cases i <;> cases i'
  · exact sim_bind (B_newTreeP (drel ρ) pr_nil) fun _ _ ht => sim_bind (B_newNodeP ht rfl) fun _ _ hx => sim_bind (B_nodeP hn) fun _ _ hb =>
      sim_bind (B_RawInplaceInsertP (drel ρ) pr_nil ho f hb.2 label hx) fun _ _ _ => ⟨hx, rfl⟩
  · exact hi.elim
  · exact hi.elim
  · exact sim_bind (B_assertP hi) fun _ _ hx => ⟨hx, rfl⟩

theorem B_ensureBranchesP {n n' : Ptr} (hn : PR ρ n n') : BD ρ (ensureBranchesP n : Prog (DD V) _) (ensureBranchesP n') Tr :=
  sim_bind (B_nodeP hn) fun _ _ hb => sim_ite hb.2.none_iff (fun _ _ => sim_bind (B_newTreeP (drel ρ) pr_nil) fun _ _ ht => B_setBranchesP hn ht) fun _ _ => trivial

theorem B_InplaceInsertP (ho : One ρ) (f : Nat) {n n' : Ptr} (hn : PR ρ n n') (d : Name) (v : V) : BD ρ (InplaceInsertP f n d v) (InplaceInsertP f n' d v) Tr :=
  sim_bind (B_ensureBranchesP hn) fun _ _ _ => sim_bind (B_GetLabelsP (fun s t l hs => B_inplaceStepP ho f s t l hs) d hn) fun _ _ hx => B_setValP hx.1 v

/-! ## Get, Enumerate -/

/-- Related nodes, the same value. -/
def GR (ρ : Addr → Addr → Prop) (x y : Ptr × Option V) : Prop := PR ρ x.1 y.1 ∧ x.2 = y.2

theorem B_getStepP (f : Nat) (s t : Ptr × Option V) (label : Bytes) (hs : GR ρ s t) : BD ρ (getStepP f s label) (getStepP f t label) (SR (GR ρ)) := by
  refine sim_bind (B_nodeP hs.1) fun x x' hb => sim_bind (B_RawGetP (drel ρ) f hb.2 label) fun i i' hi => ?_
  cases i <;> cases i'
  · exact ⟨hs, rfl⟩
  · exact hi.elim
  · exact hi.elim
  · refine sim_bind (B_assertP hi) fun n n' hn => sim_bind (B_nodeP hn) fun y y' hy => ?_
    rw [hy.1]
    cases y'.1 with
    | some v => exact ⟨⟨hn, rfl⟩, rfl⟩
    | none => exact ⟨⟨hn, hs.2⟩, rfl⟩

theorem B_GetP (f : Nat) {n n' : Ptr} (hn : PR ρ n n') (d : Name) : BD ρ (GetP f n d : Prog (DD V) _) (GetP f n' d) Eq :=
  sim_ite hn.none_iff (fun _ _ => rfl) fun _ _ => sim_bind (B_GetLabelsP (P := GR ρ) (fun s t l hs => B_getStepP f s t l hs) d ⟨hn, rfl⟩) fun _ _ hx => hx.1.2

theorem B_enumItemsP {g : Bytes → Ptr → Prog (DD V) (List (Bytes × V))} (hg : ∀ s n n', PR ρ n n' → BD ρ (g s n) (g s n') Eq) (s : Bytes) {l l' : List (Bytes × Ptr)}
    (hl : ListR (PR ρ) l l') : BD ρ (enumItemsP g s l) (enumItemsP g s l') Eq := by
  induction l generalizing l' with
  | nil =>
    cases l' with
    | nil => exact rfl
    | cons _ _ => exact hl.elim
  | cons x l ih =>
    cases l' with
    | nil => exact hl.elim
    | cons y l' =>
      obtain ⟨k, v⟩ := x
      obtain ⟨k', v'⟩ := y
      obtain ⟨e, hv, hl⟩ := hl
      cases e
      exact sim_bind (B_assertP hv) fun n n' hn => sim_bind (hg _ _ _ hn) fun a a' e => sim_bind (ih hl) fun b b' e' => by cases e; cases e'; exact rfl

theorem B_enumP (f k : Nat) (s : Bytes) {n n' : Ptr} (hn : PR ρ n n') : BD ρ (enumP f k s n : Prog (DD V) _) (enumP f k s n') Eq := by
  induction k generalizing s n n' with
  | zero => exact rfl
  | succ k ih =>
    exact sim_ite hn.none_iff (fun _ _ => rfl) fun _ _ => sim_bind (B_nodeP hn) fun x x' hx => sim_bind (B_EnumerateP (drel ρ) f hx.2) fun l l' hl =>
      sim_bind (B_enumItemsP (fun s n n' h => ih s h) s hl) fun r r' e => by cases e; rw [hx.1]; exact rfl

theorem B_EnumerateTreeP (f : Nat) {n n' : Ptr} (hn : PR ρ n n') : BD ρ (EnumerateTreeP f n : Prog (DD V) _) (EnumerateTreeP f n') Eq := B_enumP f f [] hn

/-! ## Delete, DeleteSubdomains -/

/-- Pointwise related pointers. -/
def PL (ρ : Addr → Addr → Prop) : List Ptr → List Ptr → Prop
  | [], [] => True
  | p :: l, q :: m => PR ρ p q ∧ PL ρ l m
  | _, _ => False

theorem PL.length {l m : List Ptr} (h : PL ρ l m) : l.length = m.length := by
  induction l generalizing m with
  | nil =>
    cases m with
    | nil => rfl
    | cons _ _ => exact h.elim
  | cons p l ih =>
    cases m with
    | nil => exact h.elim
    | cons q m => simp [ih h.2]

/-- The same labels, related nodes. -/
def BrR (ρ : Addr → Addr → Prop) (b c : List Bytes × Ptr × List Ptr) : Prop := b.1 = c.1 ∧ PR ρ b.2.1 c.2.1 ∧ PL ρ b.2.2 c.2.2

theorem B_branchStepP (f : Nat) (s t : List Bytes × Ptr × List Ptr) (label : Bytes) (hs : BrR ρ s t) :
    BD ρ (branchStepP f s label : Prog (DD V) _) (branchStepP f t label) (SR (BrR ρ)) := by
  refine sim_bind (B_nodeP hs.2.1) fun x x' hb => sim_bind (B_RawGetP (drel ρ) f hb.2 label) fun i i' hi => ?_
  cases i <;> cases i'
  · exact ⟨hs, rfl⟩
  · exact hi.elim
  · exact hi.elim
  · exact sim_bind (B_assertP hi) fun n n' hn => sim_ite (by rw [hs.2.2.length]) (fun _ _ => rfl) fun _ _ => ⟨⟨by rw [hs.1], hn, hs.2.1, hs.2.2⟩, rfl⟩

theorem B_getBranchP (f : Nat) {n n' : Ptr} (hn : PR ρ n n') (d : Name) : BD ρ (getBranchP f n d : Prog (DD V) _) (getBranchP f n' d) (OptR (BrR ρ)) := by
  refine sim_bind (B_GetLabelsP (P := BrR ρ) (fun s t l hs => B_branchStepP f s t l hs) d ⟨rfl, hn, trivial⟩) fun x y hx => ?_
  obtain ⟨x1, x2⟩ := x
  obtain ⟨y1, y2⟩ := y
  obtain ⟨h1, h2⟩ := hx
  cases h2
  cases x2 with
  | some e => trivial
  | none => exact h1

theorem B_ifD {α : Type} {P : α → α → Prop} {x y : Bool} (h : x = y) {p q p' q' : Prog (DD V) α} (hp : BD ρ p p' P) (hq : BD ρ q q' P) :
    BD ρ (if x then p else q) (if y then p' else q') P := by
  subst h; exact sim_ite Iff.rfl (fun _ _ => hp) fun _ _ => hq

theorem B_emptyP {n n' : Ptr} (hn : PR ρ n n') : BD ρ (emptyP n : Prog (DD V) _) (emptyP n') Eq :=
  sim_bind (B_nodeP hn) fun _ _ hb => B_ifD (by rw [hb.1]) (B_IsEmptyP (drel ρ) hb.2) rfl

theorem B_relinkP (ho : One ρ) (f : Nat) {n p n' p' : Ptr} (hn : PR ρ n n') (label : Bytes) (hp : PR ρ p p') :
    BD ρ (relinkP f n label p : Prog (DD V) _) (relinkP f n' label p') Tr :=
  sim_bind (B_emptyP hn) fun _ _ e => B_ifD e (B_delBranchP ho f hp label) (B_setBranchP ho f hp label hn)

theorem B_copyBranchP (ho : One ρ) (f : Nat) (ls : List Bytes) {n n' : Ptr} (hn : PR ρ n n') {ps ps' : List Ptr} (hp : PL ρ ps ps') :
    BD ρ (copyBranchP f n ls ps : Prog (DD V) _) (copyBranchP f n' ls ps') (PR ρ) := by
  induction ls generalizing n n' ps ps' with
  | nil => cases ps <;> cases ps' <;> exact hn
  | cons l ls ih =>
    cases ps <;> cases ps'
    · exact hn
    · exact hp.elim
    · exact hp.elim
    · exact sim_bind (B_copyP hp.1) fun _ _ hq => sim_bind (B_relinkP ho f hn l hq) fun _ _ _ => ih hq hp.2

theorem B_noneBelowP {ni n ni' n' : Ptr} (h1 : PR ρ ni ni') (h2 : PR ρ n n') : BD ρ (noneBelowP ni n : Prog (DD V) _) (noneBelowP ni' n') Eq :=
  sim_bind (B_nodeP h1) fun _ _ hx => B_ifD (by rw [hx.1]) (sim_bind (B_nodeP h2) fun _ _ hb => B_IsEmptyP (drel ρ) hb.2) rfl

theorem B_dropBranchP (ho : One ρ) (f : Nat) (ls : List Bytes) {ps ps' : List Ptr} (hp : PL ρ ps ps') : BD ρ (dropBranchP f ls ps : Prog (DD V) _) (dropBranchP f ls ps') (PR ρ) := by
  cases ls with
  | nil => cases ps <;> cases ps' <;> exact B_newNodeP pr_nil rfl
  | cons l ls =>
    cases ps <;> cases ps'
    · exact B_newNodeP pr_nil rfl
    · exact hp.elim
    · exact hp.elim
    · exact sim_bind (B_copyP hp.1) fun _ _ hc => sim_bind (B_delBranchP ho f hc l) fun _ _ _ => B_copyBranchP ho f ls hc hp.2

/-- Related trees, the same answer. -/
def DelR (ρ : Addr → Addr → Prop) (x y : Ptr × Bool) : Prop := PR ρ x.1 y.1 ∧ x.2 = y.2

theorem B_DeleteSubdomainsP (ho : One ρ) (f : Nat) {n n' : Ptr} (hn : PR ρ n n') (d : Name) :
    BD ρ (DeleteSubdomainsP f n d : Prog (DD V) _) (DeleteSubdomainsP f n' d) (DelR ρ) := by
  refine sim_ite hn.none_iff (fun _ _ => ⟨trivial, rfl⟩) fun _ _ => sim_bind (B_getBranchP f hn d) fun b b' hb => ?_
  match b, b', hb with
  | none, none, _ => exact ⟨hn, rfl⟩
  | some (labels, ni, nodes), some (_, ni', nodes'), ⟨rfl, h1, h2⟩ =>
    exact sim_bind (B_noneBelowP h1 hn) fun _ _ e => B_ifD e ⟨hn, rfl⟩ (sim_bind (B_dropBranchP ho f labels h2) fun _ _ hr => ⟨hr, rfl⟩)

theorem B_clearP (ho : One ρ) (f : Nat) {br br' : Ptr} (hb : PR ρ br br') (label : Bytes) {c c' : Ptr} (hc : PR ρ c c') : BD ρ (clearP f br label c : Prog (DD V) _) (clearP f br' label c') Tr :=
  sim_bind (B_IsEmptyP (drel ρ) hb) fun _ _ e => B_ifD e (B_delBranchP ho f hc label) (sim_bind (B_newNodeP hb rfl) fun _ _ hq => B_setBranchP ho f hc label hq)

theorem B_clearBranchP (ho : One ρ) (f : Nat) {br br' : Ptr} (hb : PR ρ br br') (ls : List Bytes) {ps ps' : List Ptr} (hp : PL ρ ps ps') :
    BD ρ (clearBranchP f br ls ps : Prog (DD V) _) (clearBranchP f br' ls ps') (PR ρ) := by
  have last : BD ρ (do
      let e ← IsEmptyP dm br
      if e then newNodeP none none else newNodeP br none : Prog (DD V) Ptr) (do
      let e ← IsEmptyP dm br'
      if e then newNodeP none none else newNodeP br' none : Prog (DD V) Ptr) (PR ρ) :=
    sim_bind (B_IsEmptyP (drel ρ) hb) fun _ _ e => B_ifD e (B_newNodeP pr_nil rfl) (B_newNodeP hb rfl)
  cases ls with
  | nil => cases ps <;> cases ps' <;> exact last
  | cons l ls =>
    cases ps <;> cases ps'
    · exact last
    · exact hp.elim
    · exact hp.elim
    · exact sim_bind (B_copyP hp.1) fun _ _ hc => sim_bind (B_clearP ho f hb l hc) fun _ _ _ => B_copyBranchP ho f ls hc hp.2

theorem B_DeleteP (ho : One ρ) (f : Nat) {n n' : Ptr} (hn : PR ρ n n') (d : Name) : BD ρ (DeleteP f n d : Prog (DD V) _) (DeleteP f n' d) (DelR ρ) := by
  refine sim_ite hn.none_iff (fun _ _ => ⟨trivial, rfl⟩) fun _ _ => sim_bind (B_getBranchP f hn d) fun b b' hb => ?_
  match b, b', hb with
  | none, none, _ => exact ⟨hn, rfl⟩
  | some (labels, ni, nodes), some (_, ni', nodes'), ⟨rfl, h1, h2⟩ =>
    exact sim_bind (B_nodeP h1) fun _ _ hx => B_ifD (by rw [hx.1]) ⟨hn, rfl⟩ (sim_bind (B_clearBranchP ho f hx.2 labels h2) fun _ _ hr => ⟨hr, rfl⟩)

/-- domaintree. -/
def domBlind (st : Bool) (f : Nat) : (domImpl (V := V) st f).Blind where
  rootR := PR
  cellR := DCellR
  root_mono h hp := hp.mono h
  cell_mono h c := ⟨c.1.mono h, c.2.1.mono h, c.2.2.mono h⟩
  fresh_r ρ _ := sim_ite Iff.rfl (fun _ _ => B_newNodeP pr_nil rfl) fun _ _ => trivial
  fresh_ok h := by cases st <;> exact ⟨_, _, rfl⟩
  cow_r ρ ho o r q hr := by
    cases o with
    | insert d v => exact B_InsertP ho f hr d v
    | delete d => exact sim_bind (B_DeleteP ho f hr d) fun _ _ hx => hx.1
    | deleteSub d => exact sim_bind (B_DeleteSubdomainsP ho f hr d) fun _ _ hx => hx.1
    | inplace d v => exact rfl
  inp_r ρ ho o r q hr := by
    cases o with
    | inplace d v => exact sim_bind (B_InplaceInsertP ho f hr d v) fun _ _ _ => hr
    | insert d v => exact rfl
    | delete d => exact rfl
    | deleteSub d => exact rfl

end Verif.DomHeap
