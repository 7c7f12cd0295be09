import Verif.Pipe.Break
import Verif.Pipe.Update
import Verif.IPHeap.CbPanic

/-!
# Calls that panic in the body of a loop, beside the goroutine left behind

When the body of a loop over a channel panics and the client recovers, the goroutine that fills the channel is still there: it runs up to its next send.  A call
that panics is compared with one that from there on only reads (`Quiets` of `Verif/IPHeap/CbPanic.lean`), which ends like C64 says; every state the panicking call
can get into, with its goroutines, is one of that call.
-/

namespace Verif.Pipe
open Verif Verif.Heap Verif.Heap.Prog

variable {D E X B α β σ : Type} {φ : Cell D → X}

/-- A deferred `recover()` in the client, which goes on with the result of the call or, after a panic, with `none`. -/
def Main.rescue (later : Option α → Main D X B β) : Main D X B α → Main D X B β
  | .ret x => later (some x)
  | .stop .panic => later none
  | .stop .fuel => .stop .fuel
  | .read a k => .read a fun c => (k c).rescue later
  | .write a c k => .write a c (k.rescue later)
  | .alloc c k => .alloc c fun a => (k a).rescue later
  | .go g k => .go g fun i => (k i).rescue later
  | .recv i k => .recv i fun o => (k o).rescue later

/-- The caller writes nothing and ends in a dead state, if it ends. -/
inductive Main.Idle (dead : σ → Prop) : Main D X B σ → Prop where
  | ret {s : σ} : dead s → Main.Idle dead (.ret s)
  | stop {e : Err} : Main.Idle dead (.stop e)
  | read {a : Addr} {k : Cell D → Main D X B σ} : (∀ c, (k c).Idle dead) → Main.Idle dead (.read a k)
  | go {g : Gen X B} {k : Nat → Main D X B σ} : (∀ i, (k i).Idle dead) → Main.Idle dead (.go g k)
  | recv {i : Nat} {k : Option B → Main D X B σ} : (∀ o, (k o).Idle dead) → Main.Idle dead (.recv i k)

/-- The second caller breaks off where the first gets into a dead state. -/
inductive Main.BreaksOff (dead : σ → Prop) : Main D X B σ → Main D X B σ → Prop where
  | ret {s : σ} : ¬ dead s → Main.BreaksOff dead (.ret s) (.ret s)
  | stop {e : Err} : Main.BreaksOff dead (.stop e) (.stop e)
  | panic {m : Main D X B σ} : m.Idle dead → Main.BreaksOff dead m (.stop .panic)
  | read {a : Addr} {k k' : Cell D → Main D X B σ} : (∀ c, (k c).BreaksOff dead (k' c)) → Main.BreaksOff dead (.read a k) (.read a k')
  | write {a : Addr} {c : Cell D} {k k' : Main D X B σ} : k.BreaksOff dead k' → Main.BreaksOff dead (.write a c k) (.write a c k')
  | alloc {c : Cell D} {k k' : Addr → Main D X B σ} : (∀ a, (k a).BreaksOff dead (k' a)) → Main.BreaksOff dead (.alloc c k) (.alloc c k')
  | go {g : Gen X B} {k k' : Nat → Main D X B σ} : (∀ i, (k i).BreaksOff dead (k' i)) → Main.BreaksOff dead (.go g k) (.go g k')
  | recv {i : Nat} {k k' : Option B → Main D X B σ} : (∀ o, (k o).BreaksOff dead (k' o)) → Main.BreaksOff dead (.recv i k) (.recv i k')

/-! ## The caller at any time -/

/-- However the steps interleave, goroutines left behind included: nothing panics, the caller is not stuck, no endless run; the caller writes a cell a goroutine is
about to read only where that leaves the fields the goroutine reads as they are; the caller's result and the memory at any time after its end satisfy `Q`. -/
structure Rescued (φ : Cell D → X) (m : Main D X B β) (h : Heap D) (Q : β → Heap D → Prop) : Prop where
  noPanic : ∀ n s, Spec.Runs (Step φ) n ⟨h, m, []⟩ s → ¬ s.Bad
  noDeadlock : ∀ n s, Spec.Runs (Step φ) n ⟨h, m, []⟩ s → (∃ x, s.main = .ret x) ∨ ∃ s', Step φ s s'
  terminates : ∃ N, ∀ n s, Spec.Runs (Step φ) n ⟨h, m, []⟩ s → n ≤ N
  noRace : ∀ n s a c k, Spec.Runs (Step φ) n ⟨h, m, []⟩ s → s.main = .write a c k → ∀ p ∈ s.kids, p.AtRead a → ∃ c0, s.heap.mem a = some c0 ∧ φ c0 = φ c
  result : ∀ n s x, Spec.Runs (Step φ) n ⟨h, m, []⟩ s → s.main = .ret x → Q x s.heap

/-- The caller writes a cell a goroutine is about to read only where that leaves the fields the goroutine reads as they are. -/
theorem clash_of {h : Heap D} {base : Nat} {Q : α → Heap D → Prop} {m : Main D X B α} {N : Nat} (hm : m.wpn φ base Q N [] h) {n : Nat} {s : Sys D X B α}
    (hr : Spec.Runs (Step φ) n ⟨h, m, []⟩ s) {a : Addr} {c : Cell D} {k : Main D X B α} (hw : s.main = .write a c k) {p : Proc X B} (hp : p ∈ s.kids) (ha : p.AtRead a) :
    ∃ c0, s.heap.mem a = some c0 ∧ φ c0 = φ c := by
  obtain ⟨M, _, q, n, M', h1, _, h3⟩ := ok_runs hr (⟨[], 0, N, ⟨rfl, rfl⟩, Nat.le_refl _, hm⟩ : (⟨h, m, []⟩ : Sys D X B α).Ok φ base Q N)
  rw [hw] at h3
  obtain ⟨i, hi⟩ := List.getElem?_of_mem hp
  obtain ⟨o, j, g, hq, _⟩ := kidsOk_get h1 hi
  rcases g with ⟨_, g, _⟩ | ⟨pin, l, rfl, hk, g⟩
  · exact (ha.not_over g).elim
  · cases hx : pin a with
    | none => exact (ha.pinned g hx).elim
    | some x =>
      obtain ⟨_, c0, e1, e2⟩ := hk a x hx
      exact ⟨c0, e1, e2.trans (h3.2.1 pin l x (List.mem_of_getElem? hq) hx).symm⟩

variable {dead : σ → Prop}

theorem Main.Idle.step {m : Main D X B σ} {h : Heap D} {ks : List (Proc X B)} (hi : m.Idle dead) {s : Sys D X B σ} (st : Step φ ⟨h, m, ks⟩ s) : s.heap = h ∧ s.main.Idle dead := by
  cases st with
  | read _ => cases hi with | read hk => exact ⟨rfl, hk _⟩
  | write => cases hi
  | alloc => cases hi
  | go => cases hi with | go hk => exact ⟨rfl, hk _⟩
  | recv _ _ => cases hi with | recv hk => exact ⟨rfl, hk _⟩
  | closed _ => cases hi with | recv hk => exact ⟨rfl, hk _⟩
  | kid _ _ => exact ⟨rfl, hi⟩

/-- A caller that is idle from now on ends with the memory as it is. -/
theorem Main.Idle.end {m : Main D X B σ} {h h1 : Heap D} {x0 : σ} (he : Ends φ m h fun x h2 => x = x0 ∧ h2 = h1) {n : Nat} {s : Sys D X B σ}
    (hr : Spec.Runs (Step φ) n ⟨h, m, []⟩ s) (hi : s.main.Idle dead) : dead x0 ∧ s.heap = h1 := by
  obtain ⟨N, hN⟩ := he.terminates
  have key : ∀ k n s, N - n ≤ k → Spec.Runs (Step φ) n ⟨h, m, []⟩ s → s.main.Idle dead → dead x0 ∧ s.heap = h1 := by
    intro k
    induction k with
    | zero =>
      intro n s hk hr hi
      rcases he.noDeadlock n s hr with ⟨x, hx⟩ | ⟨s', st⟩
      · obtain ⟨rfl, e⟩ := he.result n s x hr hx
        rw [hx] at hi
        cases hi with | ret hd => exact ⟨hd, e⟩
      · have := hN _ _ (hr.step st)
        omega
    | succ k ih =>
      intro n s hk hr hi
      rcases he.noDeadlock n s hr with ⟨x, hx⟩ | ⟨s', st⟩
      · obtain ⟨rfl, e⟩ := he.result n s x hr hx
        rw [hx] at hi
        cases hi with | ret hd => exact ⟨hd, e⟩
      · obtain ⟨e, hi'⟩ := hi.step st
        have := hN _ _ (hr.step st)
        obtain ⟨d, e'⟩ := ih (n + 1) s' (by omega) (hr.step st) hi'
        exact ⟨d, e ▸ e'⟩
  exact key _ n s (Nat.le_refl _) hr hi

/-- `h'` has all cells of `h` unchanged. -/
def Extends (h h' : Heap D) : Prop := ∀ a c, h.mem a = some c → h'.mem a = some c

theorem Proc.Bad.back {h h' : Heap D} (he : Extends h h') {p : Proc X B} (hb : p.Bad h') : p.Bad h := by
  induction hb with
  | fail => exact .fail
  | wild ha =>
    refine .wild ?_
    cases hm : (h.mem _ : Option (Cell D)) with
    | none => rfl
    | some c => rw [he _ _ hm] at ha; cases ha
  | kid hi _ ih => exact .kid hi ih

theorem PStep.back {h h' : Heap D} (he : Extends h h') {p p' : Proc X B} {l : Option B} (st : PStep φ h' p l p') (hb : ¬ p.Bad h) : PStep φ h p l p' := by
  induction st with
  | read hc =>
    cases hm : (h.mem _ : Option (Cell D)) with
    | none => exact (hb (.wild hm)).elim
    | some c =>
      rw [he _ _ hm] at hc
      cases hc
      exact .read hm
  | send => exact .send
  | go => exact .go
  | recv hi _ ih => exact .recv hi (ih fun h => hb (.kid hi h))
  | closed hi => exact .closed hi
  | kid hi _ ih => exact .kid hi (ih fun h => hb (.kid hi h))

theorem Proc.AtRead.bad {h : Heap D} {a : Addr} {p : Proc X B} (hr : p.AtRead a) (ha : h.mem a = none) : p.Bad h := by
  induction hr with
  | here => exact .wild ha
  | kid hi _ ih => exact .kid hi ih

/-- The panicking call (`t`) beside the one that goes on reading (`s`), `j` being the number of steps made after the call. -/
inductive Beside (dead : σ → Prop) (later : Option σ → Prog D β) (L : Nat) (h1 : Heap D) (Q : β → Heap D → Prop) : Nat → Sys D X B σ → Sys D X B β → Prop where
  | call {h : Heap D} {m x : Main D X B σ} {ks : List (Proc X B)} : m.BreaksOff dead x → (∀ y, x ≠ .ret y) → x ≠ .stop .panic →
      Beside dead later L h1 Q 0 ⟨h, m, ks⟩ ⟨h, x.rescue fun o => .prog (later o) .ret, ks⟩
  | over {h : Heap D} {m : Main D X B σ} {p : Prog D β} {ks : List (Proc X B)} {j : Nat} : Extends h1 h → h1.next ≤ h.next → wp (fun a => h1.next ≤ a) p Q h → j + p.left h = L →
      Beside dead later L h1 Q j ⟨h1, m, ks⟩ ⟨h, .prog p .ret, ks⟩

section
variable {m x : Main D X B σ} {h h1 : Heap D} {x0 : σ} {later : Option σ → Prog D β} {Q : β → Heap D → Prop} {o0 : Option σ}

/-- The call may just have ended. -/
theorem beside_settle (he : Ends φ m h fun y h2 => y = x0 ∧ h2 = h1) (hk : h1.Ok) (h0 : dead x0 ∧ o0 = none ∨ ¬ dead x0 ∧ o0 = some x0)
    (hl : wp (fun a => h1.next ≤ a) (later o0) Q h1) {n : Nat} {h' : Heap D} {m' x' : Main D X B σ} {ks : List (Proc X B)} (hr : Spec.Runs (Step φ) n ⟨h, m, []⟩ ⟨h', m', ks⟩)
    (hb : m'.BreaksOff dead x') :
    Beside dead later ((later o0).left h1) h1 Q 0 (⟨h', m', ks⟩ : Sys D X B σ) ⟨h', x'.rescue fun o => .prog (later o) .ret, ks⟩ := by
  by_cases k1 : ∃ y, x' = .ret y
  · obtain ⟨y, rfl⟩ := k1
    cases hb with
    | ret hd =>
      obtain ⟨rfl, rfl⟩ := he.result _ _ y hr rfl
      rcases h0 with ⟨d, _⟩ | ⟨_, rfl⟩
      · exact (hd d).elim
      · exact .over (fun _ _ => id) (Nat.le_refl _) hl (Nat.zero_add _)
  · by_cases k2 : x' = .stop .panic
    · subst k2
      have hi : m'.Idle dead := by
        cases hb with
        | stop => exact .stop
        | panic h => exact h
      obtain ⟨d, rfl⟩ := Main.Idle.end he hr hi
      rcases h0 with ⟨_, rfl⟩ | ⟨d', _⟩
      · exact .over (fun _ _ => id) (Nat.le_refl _) hl (Nat.zero_add _)
      · exact (d' d).elim
    · exact .call hb (fun y hy => k1 ⟨y, hy⟩) k2

theorem prog_write {p : Prog D β} {a : Addr} {c : Cell D} {k : Main D X B β} (e : Main.prog p .ret = .write a c k) : ∃ q, p = .write a c q ∧ k = .prog q .ret := by
  cases p <;> simp only [Main.prog] at e <;> cases e
  exact ⟨_, rfl, rfl⟩

/-- Every state of the panicking call is beside one of the other. -/
theorem beside_runs (hb : m.BreaksOff dead x) (he : Ends φ m h fun y h2 => y = x0 ∧ h2 = h1) (hk : h1.Ok) (h0 : dead x0 ∧ o0 = none ∨ ¬ dead x0 ∧ o0 = some x0)
    (hl : wp (fun a => h1.next ≤ a) (later o0) Q h1) {n : Nat} {t : Sys D X B β} (hr : Spec.Runs (Step φ) n ⟨h, x.rescue fun o => .prog (later o) .ret, []⟩ t) :
    ∃ i j s, n = i + j ∧ Spec.Runs (Step φ) i ⟨h, m, []⟩ s ∧ Beside dead later ((later o0).left h1) h1 Q j s t := by
  generalize e0 : (⟨h, x.rescue fun o => .prog (later o) .ret, []⟩ : Sys D X B β) = t0 at hr
  induction hr with
  | refl => subst e0; exact ⟨0, 0, _, rfl, .refl _, beside_settle he hk h0 hl (.refl _) hb⟩
  | @step _ y z n _ st ih =>
    obtain ⟨i, j, s, rfl, hs, hB⟩ := ih e0
    cases hB with
    | @call h' m' x' ks hb' n1 n2 =>
      have go : ∀ {h2 : Heap D} {m2 x2 : Main D X B σ} {ks2 : List (Proc X B)}, Step φ ⟨h', m', ks⟩ ⟨h2, m2, ks2⟩ → m2.BreaksOff dead x2 →
          ∃ i' j' s, i + 0 + 1 = i' + j' ∧ Spec.Runs (Step φ) i' ⟨h, m, []⟩ s ∧
            Beside dead later ((later o0).left h1) h1 Q j' s (⟨h2, x2.rescue fun o => .prog (later o) .ret, ks2⟩ : Sys D X B β) :=
        fun st hb => ⟨i + 1, 0, _, rfl, hs.step st, beside_settle he hk h0 hl (hs.step st) hb⟩
      cases hb' with
      | ret _ => exact (n1 _ rfl).elim
      | panic _ => exact (n2 rfl).elim
      | @stop e =>
        cases e with
        | panic => exact (n2 rfl).elim
        | fuel => exact (he.noPanic _ _ hs (.inl ⟨_, rfl⟩)).elim
      | read hk' =>
        simp only [Main.rescue] at st
        cases st with
        | read hc => exact go (.read hc) (hk' _)
        | kid hi st => exact go (.kid hi st) (.read hk')
      | write hk' =>
        simp only [Main.rescue] at st
        cases st with
        | write => exact go .write hk'
        | kid hi st => exact go (.kid hi st) (.write hk')
      | alloc hk' =>
        simp only [Main.rescue] at st
        cases st with
        | alloc => exact go .alloc (hk' _)
        | kid hi st => exact go (.kid hi st) (.alloc hk')
      | go hk' =>
        simp only [Main.rescue] at st
        cases st with
        | go => exact go .go (hk' _)
        | kid hi st => exact go (.kid hi st) (.go hk')
      | recv hk' =>
        simp only [Main.rescue] at st
        cases st with
        | recv hi st => exact go (.recv hi st) (hk' _)
        | closed hi => exact go (.closed hi) (hk' _)
        | kid hi st => exact go (.kid hi st) (.recv hk')
    | @over h' m' p ks j hx hle hw hj =>
      have kid : ∀ {i' : Nat} {q q' : Proc X B}, ks[i']? = some q → PStep φ h' q none q' → ∃ i2 j2 s, i + j + 1 = i2 + j2 ∧ Spec.Runs (Step φ) i2 ⟨h, m, []⟩ s ∧
          Beside dead later ((later o0).left h1) h1 Q j2 s (⟨h', .prog p .ret, ks.set i' q'⟩ : Sys D X B β) := fun hi st =>
        have hn : ¬ Proc.Bad h1 _ := fun hb => he.noPanic _ _ hs (.inr ⟨_, List.mem_of_getElem? hi, hb⟩)
        ⟨i + 1, j, _, by omega, hs.step (.kid hi (st.back hx hn)), .over hx hle hw hj⟩
      cases p with
      | ret y =>
        simp only [Main.prog] at st
        cases st with
        | kid hi st => exact kid hi st
      | stop e => exact hw.elim
      | read a k =>
        obtain ⟨c, hc, hw⟩ := hw
        simp only [Main.prog] at st
        cases st with
        | read hc' =>
          rw [hc] at hc'
          cases hc'
          refine ⟨i, j + 1, _, by omega, hs, .over hx hle hw ?_⟩
          simp only [Prog.left, hc] at hj
          omega
        | kid hi st => exact kid hi st
      | write a c k =>
        obtain ⟨ha, _, hw⟩ := hw
        simp only [Main.prog] at st
        cases st with
        | write =>
          refine ⟨i, j + 1, _, by omega, hs, .over (fun b d hb => ?_) hle hw ?_⟩
          · have hlt : b < h1.next := hk.lt hb
            show (if b = a then some c else h'.mem b) = some d
            rw [if_neg (by omega)]
            exact hx b d hb
          · simp only [Prog.left] at hj
            omega
        | kid hi st => exact kid hi st
      | alloc c k =>
        simp only [Main.prog] at st
        cases st with
        | alloc =>
          refine ⟨i, j + 1, _, by omega, hs, .over (fun b d hb => ?_) (Nat.le_succ_of_le hle) hw ?_⟩
          · have hlt : b < h1.next := hk.lt hb
            show (if b = h'.next then some c else h'.mem b) = some d
            rw [if_neg (by omega)]
            exact hx b d hb
          · simp only [Prog.left] at hj
            omega
        | kid hi st => exact kid hi st

/-- The outcome of the panicking call and what the client does afterwards. -/
theorem rescued (hb : m.BreaksOff dead x) {base N : Nat} (hm : m.wpn φ base (fun y h2 => y = x0 ∧ h2 = h1) N [] h) (hk : h1.Ok) (h0 : dead x0 ∧ o0 = none ∨ ¬ dead x0 ∧ o0 = some x0)
    (hl : wp (fun a => h1.next ≤ a) (later o0) Q h1) : Rescued φ (x.rescue fun o => .prog (later o) .ret) h Q := by
  have he := ends_of hm
  obtain ⟨M, hM⟩ := he.terminates
  refine ⟨fun n t hr => ?_, fun n t hr => ?_, ⟨M + (later o0).left h1, fun n t hr => ?_⟩, fun n t a c k hr hw p hp ha => ?_, fun n t y hr hy => ?_⟩ <;>
    obtain ⟨i, j, s, rfl, hs, hB⟩ := beside_runs hb he hk h0 hl hr
  · cases hB with
    | @call h' m' x' ks hb' n1 n2 =>
      rintro (⟨e, e1⟩ | hbad)
      · refine he.noPanic _ _ hs (.inl ?_)
        cases hb' with
        | stop => exact ⟨_, rfl⟩
        | ret _ => exact (n1 _ rfl).elim
        | panic _ => exact (n2 rfl).elim
        | read _ => cases e1
        | write _ => cases e1
        | alloc _ => cases e1
        | go _ => cases e1
        | recv _ => cases e1
      · exact he.noPanic _ _ hs (.inr hbad)
    | @over h' m' p ks j hx hle hw hj =>
      rintro (⟨e, e1⟩ | ⟨q, hq, hbad⟩)
      · cases p <;> simp only [Main.prog] at e1 <;> first | exact hw.elim | cases e1
      · exact he.noPanic _ _ hs (.inr ⟨q, hq, hbad.back hx⟩)
  · cases hB with
    | @call h' m' x' ks hb' n1 n2 =>
      refine .inr ?_
      have st := he.noDeadlock _ _ hs
      cases hb' with
      | ret _ => exact (n1 _ rfl).elim
      | panic _ => exact (n2 rfl).elim
      | stop => exact (he.noPanic _ _ hs (.inl ⟨_, rfl⟩)).elim
      | read _ =>
        rcases st with ⟨_, e⟩ | ⟨s', st⟩
        · cases e
        · cases st with
          | read hc => exact ⟨_, .read hc⟩
          | kid hi st => exact ⟨_, .kid hi st⟩
      | write _ => exact ⟨_, .write⟩
      | alloc _ => exact ⟨_, .alloc⟩
      | go _ => exact ⟨_, .go⟩
      | recv _ =>
        rcases st with ⟨_, e⟩ | ⟨s', st⟩
        · cases e
        · cases st with
          | recv hi st => exact ⟨_, .recv hi st⟩
          | closed hi => exact ⟨_, .closed hi⟩
          | kid hi st => exact ⟨_, .kid hi st⟩
    | @over h' m' p ks j hx hle hw hj =>
      cases p with
      | ret y => exact .inl ⟨y, rfl⟩
      | stop e => exact hw.elim
      | read a k => obtain ⟨c, hc, _⟩ := hw; exact .inr ⟨_, .read hc⟩
      | write a c k => exact .inr ⟨_, .write⟩
      | alloc c k => exact .inr ⟨_, .alloc⟩
  · have := hM _ _ hs
    cases hB with
    | call _ _ _ => omega
    | over _ _ _ hj => omega
  · cases hB with
    | @call h' m' x' ks hb' n1 n2 =>
      cases hb' with
      | write _ =>
        simp only [Main.rescue, Main.write.injEq] at hw
        obtain ⟨rfl, rfl, _⟩ := hw
        exact clash_of hm hs rfl hp ha
      | ret _ => exact (n1 _ rfl).elim
      | panic _ => exact (n2 rfl).elim
      | @stop e => cases e <;> first | exact (n2 rfl).elim | cases hw
      | read _ => cases hw
      | alloc _ => cases hw
      | go _ => cases hw
      | recv _ => cases hw
    | @over h' m' p' ks j hx hle hw' hj =>
      obtain ⟨q, rfl, rfl⟩ := prog_write hw
      -- the goroutine reads an old cell, the caller writes a new one
      have hold : ∃ c0, h1.mem a = some c0 := by
        cases hc : h1.mem a with
        | some c0 => exact ⟨c0, rfl⟩
        | none => exact (he.noPanic _ _ hs (.inr ⟨p, hp, ha.bad hc⟩)).elim
      obtain ⟨c0, hc⟩ := hold
      have := hk.lt hc
      have := hw'.1
      omega
  · cases hB with
    | @call h' m' x' ks hb' n1 n2 =>
      cases hb' with
      | ret _ => exact (n1 _ rfl).elim
      | panic _ => exact (n2 rfl).elim
      | @stop e => cases e <;> first | exact (n2 rfl).elim | cases hy
      | read _ => cases hy
      | write _ => cases hy
      | alloc _ => cases hy
      | go _ => cases hy
      | recv _ => cases hy
    | @over h' m' p ks j hx hle hw hj =>
      cases p <;> simp only [Main.prog] at hy <;> cases hy
      exact hw

end

/-! ## Loops whose body breaks off -/

section
variable {P : Type}

theorem Main.BreaksOff.after (p : Prog D β) {k k' : β → Main D X B σ} (hk : ∀ y, (k y).BreaksOff dead (k' y)) : (Main.prog p k).BreaksOff dead (Main.prog p k') := by
  induction p with
  | ret y => exact hk y
  | stop e => exact .stop
  | read a c ih => exact .read ih
  | write a c q ih => exact .write ih
  | alloc c q ih => exact .alloc ih

theorem Main.Idle.prog {τ : Type} {dead' : τ → Prop} {p : Prog D τ} (hp : Heap.Idle dead' p) {k : τ → Main D X B σ} (hk : ∀ s, dead' s → (k s).Idle dead) : (Main.prog p k).Idle dead := by
  induction hp with
  | ret h => exact hk _ h
  | stop => exact .stop
  | read _ ih => exact .read ih

theorem Main.BreaksOff.prog {p q : Prog D σ} (hp : Heap.BreaksOff dead p q) {k k' : σ → Main D X B σ} (hk : ∀ s, ¬ dead s → (k s).BreaksOff dead (k' s))
    (hd : ∀ s, dead s → (k s).Idle dead) : (Main.prog p k).BreaksOff dead (Main.prog q k') := by
  induction hp with
  | ret h => exact hk _ h
  | stop => exact .stop
  | panic h => exact .panic (.prog h hd)
  | read _ ih => exact .read ih
  | write _ ih => exact .write ih
  | alloc _ ih => exact .alloc ih

/-- A body, and what is made of it by a callback that may panic. -/
structure BodyCut (dead : σ → Prop) (body bodyX : B → σ → (σ → Main D X B σ) → Main D X B σ) : Prop where
  cut : ∀ b s k k', ¬ dead s → (∀ s, ¬ dead s → (k s).BreaksOff dead (k' s)) → (∀ s, dead s → (k s).Idle dead) → (body b s k).BreaksOff dead (bodyX b s k')
  idle : ∀ b s k, dead s → (∀ s, dead s → (k s).Idle dead) → (body b s k).Idle dead

variable {body bodyX : B → σ → (σ → Main D X B σ) → Main D X B σ}

theorem BodyCut.range_idle (hb : BodyCut dead body bodyX) (i f : Nat) {s : σ} {k : σ → Main D X B σ} (hs : dead s) (hk : ∀ s, dead s → (k s).Idle dead) :
    (Main.range i body f s k).Idle dead := by
  induction f generalizing s with
  | zero => exact .stop
  | succ f ih =>
    refine .recv fun o => ?_
    cases o with
    | none => exact hk s hs
    | some b => exact hb.idle b s _ hs fun s hs => ih hs

theorem BodyCut.range (hb : BodyCut dead body bodyX) (i f : Nat) {s : σ} {k k' : σ → Main D X B σ} (hs : ¬ dead s) (hk : ∀ s, ¬ dead s → (k s).BreaksOff dead (k' s))
    (hd : ∀ s, dead s → (k s).Idle dead) : (Main.range i body f s k).BreaksOff dead (Main.range i bodyX f s k') := by
  induction f generalizing s with
  | zero => exact .stop
  | succ f ih =>
    refine .recv fun o => ?_
    cases o with
    | none => exact hk s hs
    | some b => exact hb.cut b s _ _ hs (fun s hs => ih hs) fun s hs => hb.range_idle i f hs hd

end

/-! ## UpdateDescendants -/

section Iptree
open Verif.Num Verif.NumHeap Verif.IP Verif.IPHeap
variable {V : Type} {w : Nat} {W : Type}

/-- iptree/iptree.go:172-181 as `body6M`, with a callback that may panic. -/
def body6X (cb : σ → IPNet → V → Option ((V × Bool) × σ)) (f rounds : Nat) (a : Addr) (s : σ) (k : σ → Main (IPD V) Fields Addr α) : Main (IPD V) Fields Addr α :=
  .prog ((load (some a)).lift k64) fun c => match c.d.value with
    | .sub p => .go (numGen id id f p) fun i => .range i (bodyM k64 (updateNode64X cb (key6s c.d.key))) rounds s k
    | .user _ => bodyM k64 (updateNode64X cb key6) a s k

/-- iptree/iptree.go:119-183 `UpdateDescendants` as `updM`, with a callback that may panic. -/
def updX (f rounds : Nat) (cb : σ → IPNet → V → Option ((V × Bool) × σ)) (t : Ptr) (n : Option IPNet) (s : σ) : Main (IPD V) Fields Addr σ :=
  match n with
  | none => .stop .panic
  | some n =>
    match v4Key n with
    | some (key, bits) =>
      .prog (rootsP t) fun r => .prog ((FindNodeP f r.1 key bits).lift k32) fun target =>
        if target = none then .ret s else descM k32 (bodyM k32 (visit4X cb)) (f + 2) rounds target s .ret
    | none =>
      match v6Pair n with
      | none => .ret s
      | some k =>
        .prog (rootsP t) fun r => .prog ((FindNodeP f r.2 k.msKey k.msBits).lift k64) fun target =>
          if target = none then .ret s else
          .prog ((load target).lift k64) fun c => match c.d.value with
            | .sub s2 => .prog ((load s2).lift k64) fun sc =>
              .prog ((if sc.d.key = k.lsKey ∧ (sc.d.bits : Int) = k.lsBits then pure s2 else FindNodeP f s2 k.lsKey k.lsBits).lift k64) fun target =>
                if target = none then .ret s else descM k64 (bodyM k64 (updateNode64X cb (key6s k.msKey))) (f + 2) rounds target s .ret
            | .user _ => descM k64 (body6X cb (f + 1) rounds) (f + 2) rounds target s .ret

theorem bodyM_cut (K : Kind (ND w W) E) {visit visitX : Ptr → σ → Prog (ND w W) σ} (hd : ∀ n s, dead s → Heap.Idle dead (visit n s))
    (hv : ∀ n s, ¬ dead s → Heap.BreaksOff dead (visit n s) (visitX n s)) : BodyCut (B := Addr) (X := Fields) dead (bodyM K visit) (bodyM K visitX) where
  cut a s _ _ hs hk hi := .prog ((hv (some a) s hs).lift K) hk hi
  idle a s _ hs hi := .prog ((hd (some a) s hs).lift K) hi

variable {q : σ → IPNet → V → (V × Bool) × σ} {cb : σ → IPNet → V → Option ((V × Bool) × σ)}

theorem body6_cut (hq : Quiets dead q cb) (f rounds : Nat) : BodyCut (B := Addr) (X := Fields) dead (body6M q f rounds) (body6X cb f rounds) where
  cut a s k k' hs hk hi := by
    refine .after _ fun c => ?_
    cases c.d.value with
    | sub p => exact .go fun i => (bodyM_cut k64 (updateNode64_idle hq _) (updateNode64_follows hq _)).range i rounds hs hk hi
    | user v => exact (bodyM_cut k64 (updateNode64_idle hq _) (updateNode64_follows hq _)).cut a s k k' hs hk hi
  idle a s k hs hi := by
    refine .prog (dead' := fun _ => True) (Idle.lift k64 (.read fun _ => .ret trivial)) fun c _ => ?_
    cases c.d.value with
    | sub p => exact .go fun i => (bodyM_cut k64 (updateNode64_idle hq _) (updateNode64_follows hq _)).range_idle i rounds hs hi
    | user v => exact (bodyM_cut k64 (updateNode64_idle hq _) (updateNode64_follows hq _)).idle a s k hs hi

theorem descM_cut (K : Kind (ND w W) E) {body bodyX : Addr → σ → (σ → Main E Fields Addr σ) → Main E Fields Addr σ} (hb : BodyCut dead body bodyX) (f rounds : Nat) (target : Ptr) {s : σ}
    (hs : ¬ dead s) : (descM K body f rounds target s .ret).BreaksOff dead (descM K bodyX f rounds target s .ret) := by
  refine .go fun i => .after _ fun c => ?_
  have key := hb.range i rounds (k := Main.ret) (k' := Main.ret) hs (fun s hs => .ret hs) (fun s hs => .ret hs)
  by_cases h : c.d.leaf
  · simp only [h, if_true]; exact .recv fun _ => key
  · simp only [h]; exact key

/-- `UpdateDescendants` with a callback that may panic breaks off where the quiet one starts to decline. -/
theorem updM_cut (hq : Quiets dead q cb) (f rounds : Nat) (t : Ptr) (n : Option IPNet) {s : σ} (hs : ¬ dead s) : (updM f rounds q t n s).BreaksOff dead (updX f rounds cb t n s) := by
  unfold updM updX
  cases n with
  | none => exact .stop
  | some n =>
    simp only
    cases v4Key n with
    | some kb =>
      refine .after _ fun r => .after _ fun target => ?_
      split
      · exact .ret hs
      · exact descM_cut k32 (bodyM_cut k32 (visit4_idle hq) (visit4_follows hq)) _ _ _ hs
    | none =>
      simp only
      cases v6Pair n with
      | none => exact .ret hs
      | some k =>
        refine .after _ fun r => .after _ fun target => ?_
        split
        · exact .ret hs
        · refine .after _ fun c => ?_
          cases c.d.value with
          | sub s2 =>
            refine .after _ fun sc => .after _ fun tg => ?_
            split
            · exact .ret hs
            · exact descM_cut k64 (bodyM_cut k64 (updateNode64_idle hq _) (updateNode64_follows hq _)) _ _ _ hs
          | user v => exact descM_cut k64 (body6_cut hq _ _) _ _ _ hs

end Iptree

end Verif.Pipe
