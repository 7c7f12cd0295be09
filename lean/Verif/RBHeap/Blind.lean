import Verif.Heap.Alone
import Verif.RBHeap.Confine

/-!
# The programs of the red-black trees do not look at the names of addresses

Whatever the shape of the memory: they compare pointers with each other and with nil, and nothing else about them matters.
-/

namespace Verif.RBHeap
open Verif.Heap Verif.Heap.Prog Verif.RB

variable {K V : Type} {ρ : Addr → Addr → Prop} {W : V → V → Prop}

/-- The same key and colour, related values and related pointers. -/
structure CellR (ρ : Addr → Addr → Prop) (W : V → V → Prop) (c d : Cell (RD K V)) : Prop where
  c0 : PR ρ c.c0 d.c0
  c1 : PR ρ c.c1 d.c1
  key : c.d.key = d.d.key
  red : c.d.red = d.d.red
  value : W c.d.value d.d.value

theorem CellR.child {c d : Cell (RD K V)} (h : CellR ρ W c d) (b : Bool) : PR ρ (c.child b) (d.child b) := by
  cases b
  · exact h.c0
  · exact h.c1

theorem CellR.mono {σ : Addr → Addr → Prop} {W' : V → V → Prop} (h : ∀ a b, ρ a b → σ a b) (hw : ∀ x y, W x y → W' x y) {c d : Cell (RD K V)} (hc : CellR ρ W c d) : CellR σ W' c d :=
  ⟨hc.c0.mono h, hc.c1.mono h, hc.key, hc.red, hw _ _ hc.value⟩

abbrev Sm (ρ : Addr → Addr → Prop) (W : V → V → Prop) {α β : Type} (p : Prog (RD K V) α) (q : Prog (RD K V) β) (P : α → β → Prop) : Prop := p.Sim ρ (CellR ρ W) P q

/-- Nothing. -/
abbrev Tr {α β : Type} : α → β → Prop := fun _ _ => True

theorem B_setChld {n n' q q' : Ptr} (hn : PR ρ n n') (b : Bool) (hq : PR ρ q q') : Sm ρ W (setChld n b q : Prog (RD K V) Unit) (setChld n' b q') Tr :=
  sim_upd hn fun c d hc => by
    cases b
    · exact ⟨hq, hc.c1, hc.key, hc.red, hc.value⟩
    · exact ⟨hc.c0, hq, hc.key, hc.red, hc.value⟩
theorem B_setRed {n n' : Ptr} (hn : PR ρ n n') (b : Bool) : Sm ρ W (setRedP n b : Prog (RD K V) Unit) (setRedP n' b) Tr :=
  sim_upd hn fun _ _ hc => ⟨hc.c0, hc.c1, hc.key, rfl, hc.value⟩
theorem B_redP {n n' : Ptr} (hn : PR ρ n n') : Sm ρ W (redP n : Prog (RD K V) Bool) (redP n') Eq := sim_load hn fun _ _ hc => hc.red
theorem B_isRedP {n n' : Ptr} (hn : PR ρ n n') : Sm ρ W (isRedP n : Prog (RD K V) Bool) (isRedP n') Eq :=
  sim_ite hn.not_none (fun _ _ => B_redP hn) fun _ _ => rfl
theorem B_andP {x y : Bool} (h : x = y) {k l : Prog (RD K V) Bool} (hk : Sm ρ W k l Eq) : Sm ρ W (andP x k) (andP y l) Eq := by
  subst h; exact sim_ite Iff.rfl (fun _ _ => hk) fun _ _ => rfl
theorem B_notP {k l : Prog (RD K V) Bool} (hk : Sm ρ W k l Eq) : Sm ρ W (do let r ← k; pure (!r)) (do let r ← l; pure (!r)) Eq :=
  sim_bind hk fun _ _ e => by cases e; exact rfl
theorem B_fullCopy {n n' : Ptr} (hn : PR ρ n n') : Sm ρ W (fullCopy n : Prog (RD K V) Ptr) (fullCopy n') (PR ρ) :=
  sim_load hn fun _ _ hc => sim_bind (sim_new hc) fun _ _ ha => ha
theorem B_colorCopy {n n' : Ptr} (hn : PR ρ n n') (b : Bool) : Sm ρ W (colorCopy n b : Prog (RD K V) Ptr) (colorCopy n' b) (PR ρ) :=
  sim_load hn fun _ _ hc => sim_bind (sim_new ⟨hc.c0, hc.c1, hc.key, rfl, hc.value⟩) fun _ _ ha => ha

/-- A case distinction on equal Booleans. -/
theorem B_if {α : Type} {P : α → α → Prop} {x y : Bool} (h : x = y) {p q p' q' : Prog (RD K V) α} (hp : Sm ρ W p p' P) (hq : Sm ρ W q q' P) :
    Sm ρ W (if x then p else q) (if y then p' else q') P := by
  subst h; exact sim_ite Iff.rfl (fun _ _ => hp) fun _ _ => hq

theorem B_single {n n' : Ptr} (hn : PR ρ n n') (dir : Bool) : Sm ρ W (single n dir : Prog (RD K V) Ptr) (single n' dir) (PR ρ) :=
  sim_load hn fun _ _ hc => sim_load (hc.child dir) fun _ _ hs => sim_bind (B_setChld hn _ (hs.child _)) fun _ _ _ =>
    sim_bind (B_setChld (hc.child dir) _ hn) fun _ _ _ => sim_bind (B_setRed hn _) fun _ _ _ => sim_bind (B_setRed (hc.child dir) _) fun _ _ _ => hc.child dir

theorem B_double {n n' : Ptr} (hn : PR ρ n n') (dir : Bool) : Sm ρ W (double n dir : Prog (RD K V) Ptr) (double n' dir) (PR ρ) :=
  sim_load hn fun _ _ hc => sim_bind (B_single (hc.child dir) _) fun _ _ hx => sim_bind (B_setChld hn _ hx) fun _ _ _ => B_single hn _

theorem B_flipCond {n n' : Ptr} (hn : PR ρ n n') : Sm ρ W (flipCond n : Prog (RD K V) Bool) (flipCond n') Eq :=
  sim_load hn fun _ _ hc => sim_ite (and_congr hc.c0.not_none hc.c1.not_none) (fun _ _ => sim_bind (B_redP hc.c0) fun _ _ e => B_andP e (B_redP hc.c1)) fun _ _ => rfl

/-- Both pointers are related. -/
def PR2 (ρ : Addr → Addr → Prop) (c d : Ptr × Ptr) : Prop := PR ρ c.1 d.1 ∧ PR ρ c.2 d.2

theorem B_flipCow {n n' : Ptr} (hn : PR ρ n n') : Sm ρ W (flipCow n : Prog (RD K V) (Ptr × Ptr)) (flipCow n') (PR2 ρ) :=
  sim_bind (B_flipCond hn) fun _ _ e => B_if e (sim_bind (B_setRed hn _) fun _ _ _ => sim_load hn fun _ _ hc => sim_bind (B_colorCopy hc.c0 _) fun _ _ hl =>
    sim_bind (B_colorCopy hc.c1 _) fun _ _ hr => sim_bind (sim_upd hn fun _ _ hc => ⟨hl, hr, hc.key, hc.red, hc.value⟩) fun _ _ _ => ⟨hl, hr⟩) ⟨trivial, trivial⟩

theorem B_flipInp {n n' : Ptr} (hn : PR ρ n n') : Sm ρ W (flipInp n : Prog (RD K V) Unit) (flipInp n') Tr :=
  sim_bind (B_flipCond hn) fun _ _ e => B_if e (sim_bind (B_setRed hn _) fun _ _ _ => sim_load hn fun _ _ hc => sim_bind (B_setRed hc.c0 _) fun _ _ _ =>
    sim_load hn fun _ _ hc => B_setRed hc.c1 _) trivial

/-- Related pointers and equal flags. -/
def PRB (ρ : Addr → Addr → Prop) (x y : Ptr × Ptr × Bool) : Prop := PR ρ x.1 y.1 ∧ PR ρ x.2.1 y.2.1 ∧ x.2.2 = y.2.2

theorem B_rotP (ho : One ρ) {gp g p n gp' g' p' n' : Ptr} (h1 : PR ρ gp gp') (h2 : PR ρ g g') (h3 : PR ρ p p') (h4 : PR ρ n n') (pd : Bool) :
    Sm ρ W (rotP gp g p n pd : Prog (RD K V) _) (rotP gp' g' p' n' pd) (PRB ρ) :=
  sim_load h1 fun c d hc => sim_load h3 fun _ _ hp => by
    have e : decide (c.c1 = g) = decide (d.c1 = g') := decide_eq_decide.2 (hc.c1.eq_iff ho h2)
    simp only [e]
    exact sim_ite (h4.eq_iff ho (hp.child _)) (fun _ _ => sim_bind (B_single h2 _) fun _ _ hx => sim_bind (B_setChld h1 _ hx) fun _ _ _ => ⟨h1, h3, rfl⟩)
      fun _ _ => sim_bind (B_double h2 _) fun _ _ hx => sim_bind (B_setChld h1 _ hx) fun _ _ _ => ⟨h2, h1, rfl⟩

theorem B_fixP (ho : One ρ) {gp g p n gp' g' p' n' : Ptr} (h1 : PR ρ gp gp') (h2 : PR ρ g g') (h3 : PR ρ p p') (h4 : PR ρ n n') (pd : Bool) :
    Sm ρ W (fixP gp g p n pd : Prog (RD K V) _) (fixP gp' g' p' n' pd) (PRB ρ) :=
  sim_bind (B_redP h4) fun _ _ e => sim_bind (B_andP e (B_isRedP h3)) fun _ _ e => B_if e (B_rotP ho h1 h2 h3 h4 _) ⟨h2, h3, rfl⟩

theorem B_reC {b b' : Bool} (hb : b = b') {n n' : Ptr} (hn : PR ρ n n') {c c' : Ptr × Ptr} (hc : PR2 ρ c c') : Sm ρ W (reC b n c : Prog (RD K V) _) (reC b' n' c') (PR2 ρ) :=
  B_if hb (sim_load hn fun _ _ hk => ⟨hk.c0, hk.c1⟩) hc

/-- The loop variables are related. -/
structure StR (ρ : Addr → Addr → Prop) (s t : St) : Prop where
  dir : s.dir = t.dir
  g : PR ρ s.g t.g
  p : PR ρ s.p t.p
  n : PR ρ s.n t.n
  r : s.r = t.r

section
variable [Inhabited V]

theorem B_enterCow (hW : W default default) (ho : One ρ) (key : K) {q q' cd cd' : Ptr} (hq : PR ρ q q') (hcd : PR ρ cd cd') :
    Sm ρ W (enterCow key q cd : Prog (RD K V) _) (enterCow key q' cd') fun x y => PR ρ x.1 y.1 ∧ PR2 ρ x.2 y.2 :=
  sim_ite hq.none_iff (fun _ _ => sim_bind (sim_new ⟨trivial, trivial, rfl, rfl, hW⟩) fun _ _ ha => ⟨ha, trivial, trivial⟩)
    fun _ _ => sim_bind (sim_ite (hq.ne_iff ho hcd) (fun _ _ => B_fullCopy hq) fun _ _ => hq) fun _ _ hn => sim_bind (B_flipCow hn) fun _ _ hc => ⟨hn, hc⟩

theorem B_enterInp (hW : W default default) (key : K) {p p' : Ptr} (hp : PR ρ p p') (dir : Bool) {q q' : Ptr} (hq : PR ρ q q') :
    Sm ρ W (enterInp key p dir q : Prog (RD K V) _) (enterInp key p' dir q') (PR ρ) :=
  sim_ite hq.none_iff (fun _ _ => sim_bind (sim_new ⟨trivial, trivial, rfl, rfl, hW⟩) fun a b ha => sim_bind (B_setChld hp _ (q := some a) (q' := some b) ha) fun _ _ _ => ha)
    fun _ _ => sim_bind (B_flipInp hq) fun _ _ _ => hq

theorem B_insIter (hW : W default default) (ho : One ρ) (cmp : K → K → Int) (key : K) {s t : St} (hs : StR ρ s t) {c c' : Ptr × Ptr} (hc : PR2 ρ c c') :
    Sm ρ W (insIter cmp key s c : Prog (RD K V) _) (insIter cmp key t c') fun x y => StR ρ x.1 y.1 ∧ PR2 ρ x.2 y.2 := by
  unfold insIter
  simp only [hs.dir, hs.r]
  refine sim_load hs.n fun m m' hm => sim_bind (B_enterCow hW ho key (hm.child _) ?_) fun v v' hv => sim_bind (B_setChld hs.n _ hv.1) fun _ _ _ =>
    sim_bind (B_fixP ho hs.g hs.p hs.n hv.1 _) fun f f' hf => sim_bind (B_reC hf.2.2 hv.1 hv.2) fun c c' hc => sim_load hv.1 fun k k' hk => ?_
  · split
    · exact hc.2
    · exact hc.1
  · exact ⟨⟨rfl, hf.1, hf.2.1, hv.1, by simp only [hk.key]⟩, hc⟩

theorem B_insLoopP (hW : W default default) (ho : One ρ) (cmp : K → K → Int) (key : K) (f : Nat) {s t : St} (hs : StR ρ s t) {c c' : Ptr × Ptr} (hc : PR2 ρ c c') :
    Sm ρ W (insLoopP cmp key f s c : Prog (RD K V) _) (insLoopP cmp key f t c') (StR ρ) := by
  induction f generalizing s t c c' with
  | zero => exact rfl
  | succ f ih => exact sim_ite (by rw [hs.r]) (fun _ _ => sim_bind (B_insIter hW ho cmp key hs hc) fun x y hx => ih hx.1 hx.2) fun _ _ => hs

theorem B_inpIter (hW : W default default) (ho : One ρ) (cmp : K → K → Int) (key : K) {s t : St} (hs : StR ρ s t) :
    Sm ρ W (inpIter cmp key s : Prog (RD K V) _) (inpIter cmp key t) (StR ρ) := by
  unfold inpIter
  simp only [hs.dir, hs.r]
  refine sim_load hs.n fun m m' hm => sim_bind (B_enterInp hW key hs.n _ (hm.child _)) fun n n' hn => sim_bind (B_fixP ho hs.g hs.p hs.n hn _) fun f f' hf =>
    sim_load hn fun k k' hk => ?_
  exact ⟨rfl, hf.1, hf.2.1, hn, by simp only [hk.key]⟩

theorem B_inpLoopP (hW : W default default) (ho : One ρ) (cmp : K → K → Int) (key : K) (f : Nat) {s t : St} (hs : StR ρ s t) :
    Sm ρ W (inpLoopP cmp key f s : Prog (RD K V) _) (inpLoopP cmp key f t) (StR ρ) := by
  induction f generalizing s t with
  | zero => exact rfl
  | succ f ih => exact sim_ite (by rw [hs.r]) (fun _ _ => sim_bind (B_inpIter hW ho cmp key hs) fun x y hx => ih hx) fun _ _ => hs

omit [Inhabited V] in
theorem B_finish {root root' n n' : Ptr} (hr : PR ρ root root') (hn : PR ρ n n') {v v' : V} (hv : W v v') :
    Sm ρ W (finish root n v : Prog (RD K V) _) (finish root' n' v') (PR ρ) :=
  sim_bind (sim_upd hn fun _ _ hc => ⟨hc.c0, hc.c1, hc.key, hc.red, hv⟩) fun _ _ _ => sim_load hr fun _ _ hc => sim_bind (B_setRed hc.c1 _) fun _ _ _ => hc.c1

variable [Inhabited K]

theorem B_insertP (hW : W default default) (ho : One ρ) (cmp : K → K → Int) (f : Nat) {n n' : Ptr} (hn : PR ρ n n') (key : K) {v v' : V} (hv : W v v') :
    Sm ρ W (insertP cmp f n key v : Prog (RD K V) _) (insertP cmp f n' key v') (PR ρ) :=
  sim_ite hn.none_iff (fun _ _ => sim_bind (sim_new ⟨trivial, trivial, rfl, rfl, hv⟩) fun _ _ ha => ha)
    fun _ _ => sim_bind (sim_new ⟨trivial, hn, rfl, rfl, hW⟩) fun a b ha =>
      sim_bind (B_insLoopP hW ho cmp key f (s := ⟨false, none, none, some a, -1⟩) (t := ⟨false, none, none, some b, -1⟩) ⟨rfl, trivial, trivial, ha, rfl⟩ ⟨trivial, trivial⟩) fun _ _ hs =>
        B_finish (root := some a) (root' := some b) ha hs.n hv

theorem B_inplaceInsertP (hW : W default default) (ho : One ρ) (cmp : K → K → Int) (f : Nat) {n n' : Ptr} (hn : PR ρ n n') (key : K) {v v' : V} (hv : W v v') :
    Sm ρ W (inplaceInsertP cmp f n key v : Prog (RD K V) _) (inplaceInsertP cmp f n' key v') (PR ρ) :=
  sim_ite hn.none_iff (fun _ _ => sim_bind (sim_new ⟨trivial, trivial, rfl, rfl, hv⟩) fun _ _ ha => ha)
    fun _ _ => sim_bind (sim_new ⟨trivial, hn, rfl, rfl, hW⟩) fun a b ha =>
      sim_bind (B_inpLoopP hW ho cmp key f (s := ⟨false, none, none, some a, -1⟩) (t := ⟨false, none, none, some b, -1⟩) ⟨rfl, trivial, trivial, ha, rfl⟩) fun _ _ hs =>
        B_finish (root := some a) (root' := some b) ha hs.n hv

end

/-! ## get, enumerate -/

/-- Both nothing, or related values. -/
def OptR (W : V → V → Prop) : Option V → Option V → Prop
  | none, none => True
  | some x, some y => W x y
  | _, _ => False

theorem B_getP (cmp : K → K → Int) (f : Nat) {n n' : Ptr} (hn : PR ρ n n') (key : K) : Sm ρ W (getP cmp f n key : Prog (RD K V) _) (getP cmp f n' key) (OptR W) := by
  induction f generalizing n n' with
  | zero => exact rfl
  | succ f ih =>
    refine sim_ite hn.not_none (fun _ _ => sim_load hn fun c d hc => ?_) fun _ _ => trivial
    simp only [hc.key]
    exact sim_ite Iff.rfl (fun _ _ => hc.value) fun _ _ => ih (hc.child _)

/-- The same keys with related values. -/
def ListR (W : V → V → Prop) : List (K × V) → List (K × V) → Prop
  | [], [] => True
  | x :: l, y :: m => x.1 = y.1 ∧ W x.2 y.2 ∧ ListR W l m
  | _, _ => False

theorem ListR.append {l l' m m' : List (K × V)} (h1 : ListR W l l') (h2 : ListR W m m') : ListR W (l ++ m) (l' ++ m') := by
  induction l generalizing l' with
  | nil =>
    cases l' with
    | nil => exact h2
    | cons _ _ => exact h1.elim
  | cons x l ih =>
    cases l' with
    | nil => exact h1.elim
    | cons y l' => exact ⟨h1.1, h1.2.1, ih h1.2.2⟩

theorem ListR.eq {l l' : List (K × V)} (h : ListR Eq l l') : l = l' := by
  induction l generalizing l' with
  | nil =>
    cases l' with
    | nil => rfl
    | cons _ _ => exact h.elim
  | cons x l ih =>
    cases l' with
    | nil => exact h.elim
    | cons y l' => rw [ih h.2.2, Prod.ext h.1 h.2.1]

theorem B_enumerateP (f : Nat) {n n' : Ptr} (hn : PR ρ n n') : Sm ρ W (enumerateP f n : Prog (RD K V) _) (enumerateP f n') (ListR W) := by
  induction f generalizing n n' with
  | zero => exact rfl
  | succ f ih =>
    exact sim_ite hn.none_iff (fun _ _ => trivial) fun _ _ => sim_load hn fun c d hc => sim_bind (ih hc.c0) fun l l' hl => sim_bind (ih hc.c1) fun r r' hr =>
      hl.append ⟨hc.key, hc.value, hr⟩

/-! ## del -/

theorem B_noRedChild {s s' : Ptr} (hs : PR ρ s s') : Sm ρ W (noRedChild s : Prog (RD K V) Bool) (noRedChild s') Eq :=
  sim_load hs fun _ _ hc => sim_bind (B_isRedP hc.c0) fun _ _ e => sim_load hs fun _ _ hc => B_andP (by rw [e]) (B_notP (B_isRedP hc.c1))

theorem B_borrowP (ho : One ρ) {g p n s g' p' n' s' : Ptr} (hg : PR ρ g g') (hp : PR ρ p p') (hn : PR ρ n n') (hs : PR ρ s s') (b : Bool) :
    Sm ρ W (borrowP g p n s b : Prog (RD K V) Unit) (borrowP g' p' n' s' b) Tr := by
  unfold borrowP
  refine sim_load hg fun cg cg' hcg => sim_load hs fun cs cs' hcs => sim_bind (B_isRedP (hcs.child _)) fun y y' e => ?_
  subst e
  have e : decide (cg.c1 = p) = decide (cg'.c1 = p') := decide_eq_decide.2 (hcg.c1.eq_iff ho hp)
  have hr : ∀ q : Bool, Sm ρ W (do
      setRedP n true
      let cg ← load g
      setRedP (cg.child q) true
      let cx ← load (cg.child q)
      setRedP cx.c0 false
      let cx ← load (cg.child q)
      setRedP cx.c1 false : Prog (RD K V) Unit) (do
      setRedP n' true
      let cg ← load g'
      setRedP (cg.child q) true
      let cx ← load (cg.child q)
      setRedP cx.c0 false
      let cx ← load (cg.child q)
      setRedP cx.c1 false : Prog (RD K V) Unit) Tr := fun q =>
    sim_bind (B_setRed hn _) fun _ _ _ => sim_load hg fun _ _ hc => sim_bind (B_setRed (hc.child _) _) fun _ _ _ => sim_load (hc.child _) fun _ _ hx =>
      sim_bind (B_setRed hx.c0 _) fun _ _ _ => sim_load (hc.child _) fun _ _ hx => B_setRed hx.c1 _
  dsimp only
  simp only [e]
  cases y with
  | true => exact sim_bind (B_fullCopy (hcs.child _)) fun _ _ hx => sim_bind (B_setChld hs _ hx) fun _ _ _ => sim_bind (B_double hp _) fun _ _ hy =>
      sim_bind (B_setChld hg _ hy) fun _ _ _ => hr _
  | false => exact sim_bind (B_fullCopy (hcs.child _)) fun _ _ hx => sim_bind (B_setChld hs _ hx) fun _ _ _ => sim_bind (B_single hp _) fun _ _ hy =>
      sim_bind (B_setChld hg _ hy) fun _ _ _ => hr _

theorem B_siblingP (ho : One ρ) {g p n g' p' n' : Ptr} (hg : PR ρ g g') (hp : PR ρ p p') (hn : PR ρ n n') (b : Bool) :
    Sm ρ W (siblingP g p n b : Prog (RD K V) Unit) (siblingP g' p' n' b) Tr :=
  sim_load hp fun _ _ hc => sim_ite (hc.child _).not_none (fun _ _ => sim_bind (B_fullCopy (hc.child _)) fun _ _ hs => sim_bind (B_setChld hp _ hs) fun _ _ _ =>
    sim_bind (B_noRedChild hs) fun _ _ e => B_if e (sim_bind (B_setRed hp _) fun _ _ _ => sim_bind (B_setRed hn _) fun _ _ _ => B_setRed hs _) (B_borrowP ho hg hp hn hs _)) fun _ _ => trivial

theorem B_delFixP (ho : One ρ) {g p n g' p' n' : Ptr} (hg : PR ρ g g') (hp : PR ρ p p') (hn : PR ρ n n') (b d : Bool) :
    Sm ρ W (delFixP g p n b d : Prog (RD K V) Ptr) (delFixP g' p' n' b d) (PR ρ) :=
  sim_load hn fun _ _ hc => sim_bind (B_andP (by rw [hc.red]) (B_notP (B_isRedP (hc.child _)))) fun _ _ e => B_if e (sim_bind (B_isRedP (hc.child _)) fun _ _ e =>
    B_if e (sim_bind (B_fullCopy (hc.child _)) fun _ _ hx => sim_bind (B_setChld hn _ hx) fun _ _ _ => sim_bind (B_single hn _) fun _ _ hs =>
      sim_bind (B_setChld hp _ hs) fun _ _ _ => sim_load hp fun _ _ hcp => hcp.child _)
    (sim_bind (B_siblingP ho hg hp hn _) fun _ _ _ => hp)) hp

/-- The loop variables are related. -/
structure DStR (ρ : Addr → Addr → Prop) (s u : DSt) : Prop where
  p : PR ρ s.p u.p
  n : PR ρ s.n u.n
  t : PR ρ s.t u.t
  dir : s.dir = u.dir

theorem B_delIter (ho : One ρ) (cmp : K → K → Int) (key : K) {s t : DSt} (hs : DStR ρ s t) : Sm ρ W (delIter cmp key s : Prog (RD K V) DSt) (delIter cmp key t) (DStR ρ) := by
  unfold delIter
  simp only [hs.dir]
  refine sim_load hs.n fun cn cn' hcn => sim_bind (B_fullCopy (hcn.child _)) fun x x' hx => sim_bind (B_setChld hs.n _ hx) fun _ _ _ => sim_load hs.n fun cn cn' hcn =>
    sim_load (hcn.child _) fun k k' hk => ?_
  simp only [hk.key]
  refine sim_bind (B_delFixP ho hs.p hs.n (hcn.child _) _ _) fun p p' hp => ?_
  refine ⟨hp, hcn.child _, ?_, rfl⟩
  show PR ρ (if _ then _ else _) (if _ then _ else _)
  split
  · exact hcn.child _
  · exact hs.t

theorem B_delLoopP (ho : One ρ) (cmp : K → K → Int) (key : K) (f : Nat) {s t : DSt} (hs : DStR ρ s t) : Sm ρ W (delLoopP cmp key f s : Prog (RD K V) DSt) (delLoopP cmp key f t) (DStR ρ) := by
  induction f generalizing s t with
  | zero => exact rfl
  | succ f ih => exact sim_load hs.n fun _ _ hc => sim_ite (by rw [hs.dir]; exact (hc.child _).not_none) (fun _ _ => sim_bind (B_delIter ho cmp key hs) fun s t hs => ih hs) fun _ _ => hs

theorem B_delEndP (ho : One ρ) {s t : DSt} (hs : DStR ρ s t) : Sm ρ W (delEndP s : Prog (RD K V) Unit) (delEndP t) Tr :=
  sim_ite hs.t.not_none (fun _ _ => sim_load hs.n fun _ _ hcn => sim_bind (sim_upd hs.t fun _ _ hc => ⟨hc.c0, hc.c1, hcn.key, hc.red, hc.value⟩) fun _ _ _ => sim_load hs.n fun _ _ hcn =>
    sim_bind (sim_upd hs.t fun _ _ hc => ⟨hc.c0, hc.c1, hc.key, hc.red, hcn.value⟩) fun _ _ _ => sim_load hs.p fun cp cp' hcp => sim_load hs.n fun cn cn' hcn => by
      have e1 : decide (cp.c1 = s.n) = decide (cp'.c1 = t.n) := decide_eq_decide.2 (hcp.c1.eq_iff ho hs.n)
      have e2 : decide (cn.c0 = none) = decide (cn'.c0 = none) := decide_eq_decide.2 hcn.c0.none_iff
      simp only [e1, e2]
      exact B_setChld hs.p _ (hcn.child _)) fun _ _ => trivial

theorem B_delP [Inhabited K] [Inhabited V] (hW : W default default) (ho : One ρ) (cmp : K → K → Int) (f : Nat) {n n' : Ptr} (hn : PR ρ n n') (key : K) :
    Sm ρ W (delP cmp f n key : Prog (RD K V) _) (delP cmp f n' key) fun x y => PR ρ x.1 y.1 ∧ x.2 = y.2 :=
  sim_bind (sim_new ⟨trivial, hn, rfl, rfl, hW⟩) fun a b ha =>
    sim_bind (B_delLoopP ho cmp key f (s := ⟨none, some a, none, true⟩) (t := ⟨none, some b, none, true⟩) ⟨trivial, ha, trivial, rfl⟩) fun s t hs =>
      sim_bind (B_delEndP ho hs) fun _ _ _ => sim_load (n := some a) (n' := some b) ha fun _ _ hc => by
        have e : decide (s.t ≠ none) = decide (t.t ≠ none) := decide_eq_decide.2 hs.t.not_none
        rw [e]
        exact sim_ite hc.c1.not_none (fun _ _ => sim_bind (B_setRed hc.c1 _) fun _ _ _ => ⟨hc.c1, rfl⟩) fun _ _ => ⟨hc.c1, rfl⟩

/-- strtree. -/
def rbBlind [Inhabited K] [Inhabited V] (cmp : K → K → Int) (f : Nat) : (rbImpl (V := V) cmp f).toO.Blind where
  rootR := PR
  cellR ρ := CellR ρ Eq
  root_mono h hp := hp.mono h
  cell_mono h c := c.mono h fun _ _ e => e
  fresh_r _ _ := trivial
  fresh_ok h := ⟨none, h, rfl⟩
  cow_r ρ ho o r q hr := by
    cases o with
    | insert k v => exact B_insertP rfl ho cmp f hr k rfl
    | delete k => exact sim_bind (B_delP rfl ho cmp f hr k) fun _ _ hx => hx.1
  inp_r ρ ho o r q hr := by
    cases o with
    | insert k v => exact B_inplaceInsertP rfl ho cmp f hr k rfl
    | delete k => exact hr

end Verif.RBHeap
