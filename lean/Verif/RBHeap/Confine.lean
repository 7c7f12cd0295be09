import Verif.Heap.Confine
import Verif.RBHeap.History

/-!
# The programs of the red-black trees stay within what the root leads to

Whatever the shape of the memory, they follow pointers found in the nodes and make new nodes; nothing else is read or written.
-/

namespace Verif.RBHeap
open Verif.Heap Verif.Heap.Prog Verif.RB

variable {K V : Type} {A : Addr → Prop} {U : K → V → Prop}

/-- The pointers of the cell lead to `A`, and its key and value satisfy `U`. -/
def CellOf (A : Addr → Prop) (U : K → V → Prop) (c : Cell (RD K V)) : Prop := InA A c.c0 ∧ InA A c.c1 ∧ U c.d.key c.d.value

theorem CellOf.child {c : Cell (RD K V)} (h : CellOf A U c) (b : Bool) : InA A (c.child b) := by
  unfold Cell.child
  split
  · exact h.2.1
  · exact h.1

abbrev St' (A : Addr → Prop) (U : K → V → Prop) {α : Type} (p : Prog (RD K V) α) (P : α → Prop) : Prop := p.Stays A (CellOf A U) P

theorem S_setChld {n q : Ptr} (hn : InA A n) (b : Bool) (hq : InA A q) : St' A U (setChld n b q : Prog (RD K V) Unit) fun _ => True :=
  stays_upd hn fun c hc => by
    cases b
    · exact ⟨hq, hc.2.1, hc.2.2⟩
    · exact ⟨hc.1, hq, hc.2.2⟩
theorem S_setRed {n : Ptr} (hn : InA A n) (b : Bool) : St' A U (setRedP n b : Prog (RD K V) Unit) fun _ => True := stays_upd hn fun _ hc => hc
theorem S_redP {n : Ptr} (hn : InA A n) : St' A U (redP n : Prog (RD K V) Bool) fun _ => True := stays_load hn fun _ _ => trivial
theorem S_isRedP {n : Ptr} (hn : InA A n) : St' A U (isRedP n : Prog (RD K V) Bool) fun _ => True := stays_ite (fun _ => S_redP hn) fun _ => trivial
theorem S_andP {x : Bool} {k : Prog (RD K V) Bool} (hk : St' A U k fun _ => True) : St' A U (andP x k) fun _ => True := stays_ite (fun _ => hk) fun _ => trivial
theorem S_fullCopy {n : Ptr} (hn : InA A n) : St' A U (fullCopy n : Prog (RD K V) Ptr) (InA A) :=
  stays_load hn fun _ hc => stays_bind (stays_new hc) fun _ ha => InA.some ha
theorem S_colorCopy {n : Ptr} (hn : InA A n) (b : Bool) : St' A U (colorCopy n b : Prog (RD K V) Ptr) (InA A) :=
  stays_load hn fun c hc => stays_bind (stays_new (c := { c with d := c.d.col b }) hc) fun _ ha => InA.some ha

theorem S_single {n : Ptr} (hn : InA A n) (dir : Bool) : St' A U (single n dir : Prog (RD K V) Ptr) (InA A) :=
  stays_load hn fun _ hc => stays_load (hc.child dir) fun _ hs => stays_bind (S_setChld hn _ (hs.child _)) fun _ _ =>
    stays_bind (S_setChld (hc.child dir) _ hn) fun _ _ => stays_bind (S_setRed hn _) fun _ _ => stays_bind (S_setRed (hc.child dir) _) fun _ _ => hc.child dir

theorem S_double {n : Ptr} (hn : InA A n) (dir : Bool) : St' A U (double n dir : Prog (RD K V) Ptr) (InA A) :=
  stays_load hn fun _ hc => stays_bind (S_single (hc.child dir) _) fun _ hx => stays_bind (S_setChld hn _ hx) fun _ _ => S_single hn _

theorem S_flipCond {n : Ptr} (hn : InA A n) : St' A U (flipCond n : Prog (RD K V) Bool) fun _ => True :=
  stays_load hn fun _ hc => stays_ite (fun _ => stays_bind (S_redP hc.1) fun _ _ => S_andP (S_redP hc.2.1)) fun _ => trivial

/-- Both pointers lead to `A`. -/
def InA2 (A : Addr → Prop) (c : Ptr × Ptr) : Prop := InA A c.1 ∧ InA A c.2

theorem S_flipCow {n : Ptr} (hn : InA A n) : St' A U (flipCow n : Prog (RD K V) (Ptr × Ptr)) (InA2 A) :=
  stays_bind (S_flipCond hn) fun _ _ => stays_ite (fun _ => stays_bind (S_setRed hn _) fun _ _ => stays_load hn fun _ hc => stays_bind (S_colorCopy hc.1 _) fun _ hl =>
    stays_bind (S_colorCopy hc.2.1 _) fun _ hr => stays_bind (stays_upd hn fun _ hc => ⟨hl, hr, hc.2.2⟩) fun _ _ => ⟨hl, hr⟩) fun _ => ⟨InA.none, InA.none⟩

theorem S_flipInp {n : Ptr} (hn : InA A n) : St' A U (flipInp n : Prog (RD K V) Unit) fun _ => True :=
  stays_bind (S_flipCond hn) fun _ _ => stays_ite (fun _ => stays_bind (S_setRed hn _) fun _ _ => stays_load hn fun _ hc => stays_bind (S_setRed hc.1 _) fun _ _ =>
    stays_load hn fun _ hc => S_setRed hc.2.1 _) fun _ => trivial

theorem S_rotP {gp g p n : Ptr} (h1 : InA A gp) (h2 : InA A g) (h3 : InA A p) (pd : Bool) :
    St' A U (rotP gp g p n pd : Prog (RD K V) _) fun x => InA A x.1 ∧ InA A x.2.1 :=
  stays_load h1 fun _ _ => stays_load h3 fun _ _ => stays_ite (fun _ => stays_bind (S_single h2 _) fun _ hx => stays_bind (S_setChld h1 _ hx) fun _ _ => ⟨h1, h3⟩)
    fun _ => stays_bind (S_double h2 _) fun _ hx => stays_bind (S_setChld h1 _ hx) fun _ _ => ⟨h2, h1⟩

theorem S_fixP {gp g p n : Ptr} (h1 : InA A gp) (h2 : InA A g) (h3 : InA A p) (h4 : InA A n) (pd : Bool) :
    St' A U (fixP gp g p n pd : Prog (RD K V) _) fun x => InA A x.1 ∧ InA A x.2.1 :=
  stays_bind (S_redP h4) fun _ _ => stays_bind (S_andP (S_isRedP h3)) fun _ _ => stays_ite (fun _ => S_rotP h1 h2 h3 _) fun _ => ⟨h2, h3⟩

theorem S_reC (b : Bool) {n : Ptr} (hn : InA A n) {c : Ptr × Ptr} (hc : InA2 A c) : St' A U (reC b n c : Prog (RD K V) _) (InA2 A) :=
  stays_ite (fun _ => stays_load hn fun _ hk => ⟨hk.1, hk.2.1⟩) fun _ => hc

/-- The loop variables lead to `A`. -/
def StIn (A : Addr → Prop) (s : St) : Prop := InA A s.g ∧ InA A s.p ∧ InA A s.n

section
variable [Inhabited V]

theorem S_enterCow (hU : ∀ k, U k default) (key : K) {q : Ptr} (hq : InA A q) (cd : Ptr) : St' A U (enterCow key q cd : Prog (RD K V) _) fun x => InA A x.1 ∧ InA2 A x.2 :=
  stays_ite (fun _ => stays_bind (stays_new ⟨InA.none, InA.none, hU _⟩) fun _ ha => ⟨InA.some ha, InA.none, InA.none⟩)
    fun _ => stays_bind (stays_ite (fun _ => S_fullCopy hq) fun _ => hq) fun _ hn => stays_bind (S_flipCow hn) fun _ hc => ⟨hn, hc⟩

theorem S_enterInp (hU : ∀ k, U k default) (key : K) {p : Ptr} (hp : InA A p) (dir : Bool) {q : Ptr} (hq : InA A q) : St' A U (enterInp key p dir q : Prog (RD K V) _) (InA A) :=
  stays_ite (fun _ => stays_bind (stays_new ⟨InA.none, InA.none, hU _⟩) fun _ ha => stays_bind (S_setChld hp _ (InA.some ha)) fun _ _ => InA.some ha)
    fun _ => stays_bind (S_flipInp hq) fun _ _ => hq

theorem S_insIter (hU : ∀ k, U k default) (cmp : K → K → Int) (key : K) {s : St} (hs : StIn A s) {c : Ptr × Ptr} (_hc : InA2 A c) :
    St' A U (insIter cmp key s c : Prog (RD K V) _) fun x => StIn A x.1 ∧ InA2 A x.2 := by
  unfold insIter
  refine stays_load hs.2.2 fun m hm => stays_bind (S_enterCow hU key (hm.child _) _) fun v hv => stays_bind (S_setChld hs.2.2 _ hv.1) fun _ _ =>
    stays_bind (S_fixP hs.1 hs.2.1 hs.2.2 hv.1 _) fun f hf => stays_bind (S_reC _ hv.1 hv.2) fun c hc => stays_load hv.1 fun k _ => ?_
  exact ⟨⟨hf.1, hf.2, hv.1⟩, hc⟩

theorem S_insLoopP (hU : ∀ k, U k default) (cmp : K → K → Int) (key : K) (f : Nat) {s : St} (hs : StIn A s) {c : Ptr × Ptr} (hc : InA2 A c) :
    St' A U (insLoopP cmp key f s c : Prog (RD K V) _) (StIn A) := by
  induction f generalizing s c with
  | zero => trivial
  | succ f ih => exact stays_ite (fun _ => stays_bind (S_insIter hU cmp key hs hc) fun x hx => ih hx.1 hx.2) fun _ => hs

theorem S_inpIter (hU : ∀ k, U k default) (cmp : K → K → Int) (key : K) {s : St} (hs : StIn A s) : St' A U (inpIter cmp key s : Prog (RD K V) _) (StIn A) := by
  unfold inpIter
  refine stays_load hs.2.2 fun m hm => stays_bind (S_enterInp hU key hs.2.2 _ (hm.child _)) fun n hn => stays_bind (S_fixP hs.1 hs.2.1 hs.2.2 hn _) fun f hf =>
    stays_load hn fun k _ => ?_
  exact ⟨hf.1, hf.2, hn⟩

theorem S_inpLoopP (hU : ∀ k, U k default) (cmp : K → K → Int) (key : K) (f : Nat) {s : St} (hs : StIn A s) : St' A U (inpLoopP cmp key f s : Prog (RD K V) _) (StIn A) := by
  induction f generalizing s with
  | zero => trivial
  | succ f ih => exact stays_ite (fun _ => stays_bind (S_inpIter hU cmp key hs) fun x hx => ih hx) fun _ => hs

omit [Inhabited V] in
theorem S_finish {root n : Ptr} (hr : InA A root) (hn : InA A n) {value : V} (hv : ∀ k, U k value) : St' A U (finish root n value : Prog (RD K V) _) (InA A) :=
  stays_bind (stays_upd hn fun _ hc => ⟨hc.1, hc.2.1, hv _⟩) fun _ _ => stays_load hr fun _ hc => stays_bind (S_setRed hc.2.1 _) fun _ _ => hc.2.1

variable [Inhabited K]

theorem S_insertP (hU : ∀ k, U k default) (cmp : K → K → Int) (f : Nat) {n : Ptr} (hn : InA A n) (key : K) {value : V} (hv : ∀ k, U k value) :
    St' A U (insertP cmp f n key value : Prog (RD K V) _) (InA A) :=
  stays_ite (fun _ => stays_bind (stays_new ⟨InA.none, InA.none, hv _⟩) fun _ ha => InA.some ha)
    fun _ => stays_bind (stays_new ⟨InA.none, hn, hU _⟩) fun _ ha => stays_bind (S_insLoopP hU cmp key f ⟨InA.none, InA.none, InA.some ha⟩ ⟨InA.none, InA.none⟩) fun _ hs =>
      S_finish (InA.some ha) hs.2.2 hv

theorem S_inplaceInsertP (hU : ∀ k, U k default) (cmp : K → K → Int) (f : Nat) {n : Ptr} (hn : InA A n) (key : K) {value : V} (hv : ∀ k, U k value) :
    St' A U (inplaceInsertP cmp f n key value : Prog (RD K V) _) (InA A) :=
  stays_ite (fun _ => stays_bind (stays_new ⟨InA.none, InA.none, hv _⟩) fun _ ha => InA.some ha)
    fun _ => stays_bind (stays_new ⟨InA.none, hn, hU _⟩) fun _ ha => stays_bind (S_inpLoopP hU cmp key f ⟨InA.none, InA.none, InA.some ha⟩) fun _ hs =>
      S_finish (InA.some ha) hs.2.2 hv

end

/-! ## get, enumerate -/

theorem S_getP (cmp : K → K → Int) (f : Nat) {n : Ptr} (hn : InA A n) (key : K) : St' A U (getP cmp f n key : Prog (RD K V) _) fun r => ∀ v, r = some v → ∃ k, cmp k key = 0 ∧ U k v := by
  induction f generalizing n with
  | zero => trivial
  | succ f ih =>
    refine stays_ite (fun _ => stays_load hn fun c hc => ?_) fun _ v hv => by cases hv
    dsimp only
    exact stays_ite (fun he v hv => by cases hv; exact ⟨_, he, hc.2.2⟩) fun _ => ih (hc.child _)

theorem S_enumerateP (f : Nat) {n : Ptr} (hn : InA A n) : St' A U (enumerateP f n : Prog (RD K V) _) fun l => ∀ x ∈ l, U x.1 x.2 := by
  induction f generalizing n with
  | zero => trivial
  | succ f ih =>
    refine stays_ite (fun _ x hx => by cases hx) fun _ => stays_load hn fun c hc => stays_bind (ih hc.1) fun l hl => stays_bind (ih hc.2.1) fun r hr x hx => ?_
    rw [List.mem_append, List.mem_cons] at hx
    rcases hx with hx | hx | hx
    · exact hl x hx
    · subst hx; exact hc.2.2
    · exact hr x hx

/-! ## del -/

theorem S_noRedChild {s : Ptr} (hs : InA A s) : St' A U (noRedChild s : Prog (RD K V) Bool) fun _ => True :=
  stays_load hs fun _ hc => stays_bind (S_isRedP hc.1) fun _ _ => stays_load hs fun _ hc => S_andP (stays_bind (S_isRedP hc.2.1) fun _ _ => trivial)

theorem S_borrowP {g p n s : Ptr} (hg : InA A g) (hp : InA A p) (hn : InA A n) (hs : InA A s) (b : Bool) : St' A U (borrowP g p n s b : Prog (RD K V) Unit) fun _ => True := by
  unfold borrowP
  refine stays_load hg fun cg _ => stays_load hs fun cs hcs => stays_bind (S_isRedP (hcs.child _)) fun y _ => ?_
  have hr : ∀ q : Bool, St' A U (do
      setRedP n true
      let cg ← load g
      setRedP (cg.child q) true
      let cx ← load (cg.child q)
      setRedP cx.c0 false
      let cx ← load (cg.child q)
      setRedP cx.c1 false : Prog (RD K V) Unit) fun _ => True := fun q =>
    stays_bind (S_setRed hn _) fun _ _ => stays_load hg fun _ hc => stays_bind (S_setRed (hc.child _) _) fun _ _ => stays_load (hc.child _) fun _ hx =>
      stays_bind (S_setRed hx.1 _) fun _ _ => stays_load (hc.child _) fun _ hx => S_setRed hx.2.1 _
  dsimp only
  split
  · exact stays_bind (S_fullCopy (hcs.child _)) fun _ hx => stays_bind (S_setChld hs _ hx) fun _ _ => stays_bind (S_double hp _) fun _ hy =>
      stays_bind (S_setChld hg _ hy) fun _ _ => hr _
  · exact stays_bind (S_fullCopy (hcs.child _)) fun _ hx => stays_bind (S_setChld hs _ hx) fun _ _ => stays_bind (S_single hp _) fun _ hy =>
      stays_bind (S_setChld hg _ hy) fun _ _ => hr _

theorem S_siblingP {g p n : Ptr} (hg : InA A g) (hp : InA A p) (hn : InA A n) (b : Bool) : St' A U (siblingP g p n b : Prog (RD K V) Unit) fun _ => True :=
  stays_load hp fun _ hc => stays_ite (fun _ => stays_bind (S_fullCopy (hc.child _)) fun _ hs => stays_bind (S_setChld hp _ hs) fun _ _ => stays_bind (S_noRedChild hs) fun _ _ =>
    stays_ite (fun _ => stays_bind (S_setRed hp _) fun _ _ => stays_bind (S_setRed hn _) fun _ _ => S_setRed hs _) fun _ => S_borrowP hg hp hn hs _) fun _ => trivial

theorem S_delFixP {g p n : Ptr} (hg : InA A g) (hp : InA A p) (hn : InA A n) (b d : Bool) : St' A U (delFixP g p n b d : Prog (RD K V) Ptr) (InA A) :=
  stays_load hn fun _ hc => stays_bind (S_andP (stays_bind (S_isRedP (hc.child _)) fun _ _ => trivial)) fun _ _ => stays_ite (fun _ => stays_bind (S_isRedP (hc.child _)) fun _ _ =>
    stays_ite (fun _ => stays_bind (S_fullCopy (hc.child _)) fun _ hx => stays_bind (S_setChld hn _ hx) fun _ _ => stays_bind (S_single hn _) fun _ hs =>
      stays_bind (S_setChld hp _ hs) fun _ _ => stays_load hp fun _ hcp => hcp.child _)
    fun _ => stays_bind (S_siblingP hg hp hn _) fun _ _ => hp) fun _ => hp

/-- The loop variables lead to `A`. -/
def DStIn (A : Addr → Prop) (s : DSt) : Prop := InA A s.p ∧ InA A s.n ∧ InA A s.t

theorem S_delIter (cmp : K → K → Int) (key : K) {s : DSt} (hs : DStIn A s) : St' A U (delIter cmp key s : Prog (RD K V) DSt) (DStIn A) := by
  unfold delIter
  refine stays_load hs.2.1 fun cn hcn => stays_bind (S_fullCopy (hcn.child _)) fun x hx => stays_bind (S_setChld hs.2.1 _ hx) fun _ _ => stays_load hs.2.1 fun cn hcn =>
    stays_load (hcn.child _) fun k _ => stays_bind (S_delFixP hs.1 hs.2.1 (hcn.child _) _ _) fun p hp => ?_
  refine ⟨hp, hcn.child _, ?_⟩
  show InA A (if _ then _ else _)
  split
  · exact hcn.child _
  · exact hs.2.2

theorem S_delLoopP (cmp : K → K → Int) (key : K) (f : Nat) {s : DSt} (hs : DStIn A s) : St' A U (delLoopP cmp key f s : Prog (RD K V) DSt) (DStIn A) := by
  induction f generalizing s with
  | zero => trivial
  | succ f ih => exact stays_load hs.2.1 fun _ _ => stays_ite (fun _ => stays_bind (S_delIter cmp key hs) fun s hs => ih hs) fun _ => hs

theorem S_delEndP (hk : ∀ k k' v, U k v → U k' v) {s : DSt} (hs : DStIn A s) : St' A U (delEndP s : Prog (RD K V) Unit) fun _ => True :=
  stays_ite (fun _ => stays_load hs.2.1 fun _ _ => stays_bind (stays_upd hs.2.2 fun _ hc => ⟨hc.1, hc.2.1, hk _ _ _ hc.2.2⟩) fun _ _ => stays_load hs.2.1 fun _ hcn =>
    stays_bind (stays_upd hs.2.2 fun _ hc => ⟨hc.1, hc.2.1, hk _ _ _ hcn.2.2⟩) fun _ _ => stays_load hs.1 fun _ _ => stays_load hs.2.1 fun _ hcn => S_setChld hs.1 _ (hcn.child _)) fun _ => trivial

theorem S_delP [Inhabited K] [Inhabited V] (hU : ∀ k, U k default) (hk : ∀ k k' v, U k v → U k' v) (cmp : K → K → Int) (f : Nat) {n : Ptr} (hn : InA A n) (key : K) :
    St' A U (delP cmp f n key : Prog (RD K V) _) fun x => InA A x.1 :=
  stays_bind (stays_new ⟨InA.none, hn, hU _⟩) fun _ ha => stays_bind (S_delLoopP cmp key f ⟨InA.none, InA.some ha, InA.none⟩) fun _ hs => stays_bind (S_delEndP hk hs) fun _ _ =>
    stays_load (InA.some ha) fun _ hc => stays_ite (fun _ => stays_bind (S_setRed hc.2.1 _) fun _ _ => hc.2.1) fun _ => hc.2.1

/-- strtree. -/
def rbConfined [Inhabited K] [Inhabited V] (cmp : K → K → Int) (f : Nat) : (rbImpl (V := V) cmp f).toO.Confined where
  rootIn := InA
  cellIn S := CellOf S fun _ _ => True
  root_mono h hp := hp.mono h
  cell_mono h c := ⟨c.1.mono h, c.2.1.mono h, trivial⟩
  fresh_in _ := InA.none
  cow_in S o r hr := by
    cases o with
    | insert k v => exact S_insertP (fun _ => trivial) cmp f hr k fun _ => trivial
    | delete k => exact stays_bind (S_delP (fun _ => trivial) (fun _ _ _ _ => trivial) cmp f hr k) fun _ hx => hx
  inp_in S o r hr := by
    cases o with
    | insert k v => exact S_inplaceInsertP (fun _ => trivial) cmp f hr k fun _ => trivial
    | delete k => exact hr

end Verif.RBHeap
