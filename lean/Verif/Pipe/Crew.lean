import Verif.Pipe.Fuel
import Verif.Heap.Fleet

/-!
# Several callers, each with goroutines of its own

As `Heap/Fleet.lean`, but every thread is a caller that starts goroutines and receives from them.  Cells below `base` exist at the start
and are shared: a write by one thread is seen by all.  A caller and its goroutines also see the cells the caller made since.  Callers
do not hand new cells or channels to each other.
-/

namespace Verif.Pipe
open Verif.Heap

variable {D X B α T : Type} {φ : Cell D → X}

/-- The shared cells, and every thread with its caller, its goroutines and the memory it made. -/
structure Crew (D X B α T : Type) where
  base : Nat
  shared : Nat → Option (Cell D)
  sys : T → Sys D X B α

/-- Thread `t` with the memory as it sees it. -/
def Crew.view (c : Crew D X B α T) (t : T) : Sys D X B α :=
  ⟨⟨fun a => if a < c.base then c.shared a else (c.sys t).heap.mem a, (c.sys t).heap.next⟩, (c.sys t).main, (c.sys t).kids⟩

/-- All threads at their start on memory `h`. -/
def Crew.start (h : Heap D) (m : T → Main D X B α) : Crew D X B α T := ⟨h.next, h.mem, fun t => ⟨h, m t, []⟩⟩

/-- One step of thread `t` (its caller or one of its goroutines). -/
inductive CrewStep [DecidableEq T] (φ : Cell D → X) (t : T) (c : Crew D X B α T) : Crew D X B α T → Prop where
  | of {s : Sys D X B α} : Step φ (c.view t) s →
      CrewStep φ t c ⟨c.base, fun a => if a < c.base then s.heap.mem a else c.shared a, fun u => if u = t then s else c.sys u⟩

/-- Runs with the list of threads whose turns they were. -/
inductive CrewRuns [DecidableEq T] (φ : Cell D → X) (c0 : Crew D X B α T) : List T → Crew D X B α T → Prop where
  | refl : CrewRuns φ c0 [] c0
  | step {l : List T} {c c' : Crew D X B α T} {t : T} : CrewRuns φ c0 l c → CrewStep φ t c c' → CrewRuns φ c0 (t :: l) c'

/-- Memory only grows. -/
theorem Step.next_le {s s' : Sys D X B α} (st : Step φ s s') : s.heap.next ≤ s'.heap.next := by
  cases st <;> simp [Heap.put, Heap.push]

theorem Step.keeps {s s' : Sys D X B α} {base : Nat} (hb : base ≤ s.heap.next) (hw : ∀ a c k, s.main = .write a c k → base ≤ a) (st : Step φ s s') (a : Nat) (ha : a < base) :
    s'.heap.mem a = s.heap.mem a := by
  cases st with
  | @write h b c k ks =>
    have := hw b c k rfl
    simp only [Heap.put]
    rw [if_neg (by omega)]
  | @alloc h c k ks =>
    simp only [Heap.push]
    simp only at hb
    rw [if_neg (by omega)]
  | _ => rfl

/-- Alone, a thread that never writes below `h.next` leaves those cells. -/
theorem runs_keep {h : Heap D} {m : Main D X B α} (hw : ∀ n s, Spec.Runs (Step φ) n ⟨h, m, []⟩ s → ∀ a c k, s.main = .write a c k → h.next ≤ a) {n : Nat} {s : Sys D X B α}
    (hr : Spec.Runs (Step φ) n ⟨h, m, []⟩ s) : h.next ≤ s.heap.next ∧ ∀ a, a < h.next → s.heap.mem a = h.mem a := by
  generalize hs0 : (⟨h, m, []⟩ : Sys D X B α) = s0 at hr
  induction hr with
  | refl => subst hs0; exact ⟨Nat.le_refl _, fun _ _ => rfl⟩
  | step h1 st ih =>
    subst hs0
    obtain ⟨i1, i2⟩ := ih rfl
    refine ⟨Nat.le_trans i1 st.next_le, fun a ha => ?_⟩
    rw [st.keeps i1 (fun a c k => hw _ _ h1 a c k) a ha, i2 a ha]

/-- Every thread is where it would be alone after as many steps of its own. -/
theorem crew_inv [DecidableEq T] {h : Heap D} {m : T → Main D X B α}
    (hw : ∀ t n s, Spec.Runs (Step φ) n ⟨h, m t, []⟩ s → ∀ a c k, s.main = .write a c k → h.next ≤ a) {l : List T} {c : Crew D X B α T}
    (hr : CrewRuns φ (Crew.start h m) l c) :
    c.base = h.next ∧ (∀ a, a < h.next → c.shared a = h.mem a) ∧ ∀ t, Spec.Runs (Step φ) (l.count t) ⟨h, m t, []⟩ (c.view t) := by
  induction hr with
  | refl =>
    refine ⟨rfl, fun _ _ => rfl, fun t => ?_⟩
    have : (Crew.start h m).view t = ⟨h, m t, []⟩ := by
      have e : (fun a => if a < h.next then h.mem a else h.mem a) = h.mem := by funext a; split <;> rfl
      show (⟨⟨fun a => if a < h.next then h.mem a else h.mem a, h.next⟩, m t, []⟩ : Sys D X B α) = _
      rw [e]
    rw [this]
    exact .refl _
  | @step l c c' t hr st ih =>
    obtain ⟨i1, i2, i3⟩ := ih
    cases st with
    | @of s st =>
      have hs : Spec.Runs (Step φ) (l.count t + 1) ⟨h, m t, []⟩ s := .step (i3 t) st
      obtain ⟨k1, k2⟩ := runs_keep (hw t) hs
      refine ⟨i1, fun a ha => ?_, fun u => ?_⟩
      · simp only [i1, if_pos ha]; exact k2 a ha
      · by_cases e : u = t
        · subst e
          have : Crew.view ⟨c.base, fun a => if a < c.base then s.heap.mem a else c.shared a, fun v => if v = u then s else c.sys v⟩ u = s := by
            obtain ⟨⟨sm, sn⟩, mn, ks⟩ := s
            simp only [Crew.view, if_true]
            congr 2
            funext a
            split <;> rfl
          rw [this, List.count_cons_self]
          exact hs
        · have : Crew.view ⟨c.base, fun a => if a < c.base then s.heap.mem a else c.shared a, fun v => if v = t then s else c.sys v⟩ u = c.view u := by
            simp only [Crew.view, if_neg e]
            congr 2
            funext a
            by_cases ha : a < c.base
            · simp only [if_pos ha]
              rw [i1] at ha
              rw [k2 a ha, i2 a ha]
            · simp only [if_neg ha]
          rw [this, List.count_cons_of_ne (fun h => e h.symm)]
          exact i3 u

/-- What the threads are promised, however their steps interleave. -/
structure CrewEnds [DecidableEq T] (φ : Cell D → X) (h : Heap D) (m : T → Main D X B α) (Q : T → α → Heap D → Prop) : Prop where
  /-- nothing panics -/
  noPanic : ∀ l c, CrewRuns φ (Crew.start h m) l c → ∀ t, ¬ (c.view t).Bad
  /-- no thread is about to write a cell that another can see -/
  noRace : ∀ l c, CrewRuns φ (Crew.start h m) l c → ∀ t a x k, (c.sys t).main = .write a x k → h.next ≤ a
  /-- a thread that has not returned can move, whatever the others do -/
  noDeadlock : ∀ l c, CrewRuns φ (Crew.start h m) l c → ∀ t, (∃ x, (c.sys t).main = .ret x) ∨ ∃ c', CrewStep φ t c c'
  /-- a thread has returned after some number of turns -/
  terminates : ∀ t, ∃ N, ∀ l c, CrewRuns φ (Crew.start h m) l c → l.count t ≤ N
  /-- its result is that of the thread alone, in the memory as it sees it -/
  result : ∀ l c, CrewRuns φ (Crew.start h m) l c → ∀ t x, (c.sys t).main = .ret x → Q t x (c.view t).heap
  /-- none of its goroutines is left -/
  noLeak : ∀ l c, CrewRuns φ (Crew.start h m) l c → ∀ t x, (c.sys t).main = .ret x → allOver (c.sys t).kids
  /-- the cells there were at the start are as they were -/
  old : ∀ l c, CrewRuns φ (Crew.start h m) l c → ∀ t, h.next ≤ (c.view t).heap.next ∧ ∀ a, a < h.next → (c.view t).heap.mem a = h.mem a

theorem crew_ends [DecidableEq T] {h : Heap D} {m : T → Main D X B α} {Q : T → α → Heap D → Prop} (hm : ∀ t, DoesIn h.next φ (Q t) [] (m t) h) : CrewEnds φ h m Q := by
  have hw : ∀ t n s, Spec.Runs (Step φ) n ⟨h, m t, []⟩ s → ∀ a c k, s.main = .write a c k → h.next ≤ a := fun t n s hr a c k e => (hm t).writes hr e
  have inv := fun l (c : Crew D X B α T) (hr : CrewRuns φ (Crew.start h m) l c) => (crew_inv hw hr).2.2
  refine ⟨fun l c hr t => (hm t).ends.noPanic _ _ (inv l c hr t), fun l c hr t a x k e => hw t _ _ (inv l c hr t) a x k e, fun l c hr t => ?_, fun t => ?_,
    fun l c hr t x e => (hm t).ends.result _ _ x (inv l c hr t) e, fun l c hr t x e => (hm t).ends.noLeak _ (c.view t) x (inv l c hr t) e,
    fun l c hr t => runs_keep (hw t) (inv l c hr t)⟩
  · rcases (hm t).ends.noDeadlock _ _ (inv l c hr t) with h | ⟨s, st⟩
    · exact .inl h
    · exact .inr ⟨_, .of st⟩
  · obtain ⟨N, hN⟩ := (hm t).ends.terminates
    exact ⟨N, fun l c hr => hN _ _ (inv l c hr t)⟩

theorem CrewEnds.mono [DecidableEq T] {h : Heap D} {m : T → Main D X B α} {Q R : T → α → Heap D → Prop} (hm : CrewEnds φ h m Q) (hQ : ∀ t x h', Q t x h' → R t x h') : CrewEnds φ h m R :=
  ⟨hm.noPanic, hm.noRace, hm.noDeadlock, hm.terminates, fun l c hr t x e => hQ _ _ _ (hm.result l c hr t x e), hm.noLeak, hm.old⟩

variable {O R K A E : Type} {ok iok : List O → O → Prop} {L L' : List O → List E → Prop}

/-- After any legal history, any number of callers with legal scripts that change in place only trees they started themselves. -/
theorem obj_crew [DecidableEq T] {I : OImpl D O R} {N : Nat → Prop} (hI : ∀ n, N n → I.Lawful n) (ops : List (SOp O)) (hn : N ops.length)
    (hl : (Book.init : Book O).LegalAll2 I.cowOk I.inpOk ops) (Rd : K → R → Heap.Prog D A) (P : K → List O → A → Prop) (Ob : Heap D → R → List O → Prop)
    (hR : ∀ n, N n → ∀ k h r l F, l.length ≤ n → I.Obj h r l F → Prog.wp (fun _ => False) (Rd k r) (fun x h' => h' = h ∧ P k l x) h)
    (hO : ∀ n, N n → ∀ h r l F, l.length ≤ n → I.Obj h r l F → Ob h r l) {Lp : Loop D R B E} (hL : ∀ n, N n → Lp.Lawful I L n) (sc : T → Script O K E)
    (hs : ∀ t, (sc t).Legal I.cowOk I.inpOk L N (List.range (Book.init.exec ops).next) (Book.init.exec ops) ops.length) :
    ∃ s, OStore.init.exec I ops = .ok s ∧ CrewEnds id s.heap (fun t => (sc t).main I Rd Lp ([], s.roots) .ret) (fun t => Comes P Ob L (Book.init.exec ops) (sc t)) := by
  obtain ⟨s, e, i1⟩ := oexec_inv (hI _ hn) (oinv_init I) ops (by omega) hl
  obtain ⟨Z, hz⟩ := OInv.zinv (hI _ hn) i1.rebase
  rw [Nat.zero_add] at hz
  exact ⟨s, e, crew_ends fun t => zinv_script hI Rd P Ob hR hO hL (sc t) hn hz (hs t)⟩

theorem fin_bound {n : Nat} {P : Fin n → Nat → Prop} (h : ∀ t, ∃ f0, ∀ f, f0 ≤ f → P t f) : ∃ f0, ∀ f, f0 ≤ f → ∀ t, P t f := by
  induction n with
  | zero => exact ⟨0, fun _ _ t => t.elim0⟩
  | succ n ih =>
    obtain ⟨f1, h1⟩ := ih (P := fun t => P t.succ) fun t => h t.succ
    obtain ⟨f2, h2⟩ := h 0
    refine ⟨max f1 f2, fun f hf t => ?_⟩
    cases t using Fin.cases with
    | zero => exact h2 f (by omega)
    | succ t => exact h1 f (by omega) t

/-- `obj_crew` for code with a bound on recursion: with any large enough bound all is well. -/
theorem obj_crew_fuel {k : Nat} {I : Nat → OImpl D O R} (hc : ∀ f, (I f).cowOk = ok) (hi : ∀ f, (I f).inpOk = iok) (ops : List (SOp O))
    (hl : (Book.init : Book O).LegalAll2 ok iok ops) (Rd : Nat → K → R → Heap.Prog D A) (P : K → List O → A → Prop) (Ob : Nat → Heap D → R → List O → Prop)
    {Lp : Nat → Loop D R B E} (hL' : ∀ l es, L' l es → L l es) (hfun : ∀ l es es', L' l es → L' l es' → es = es')
    (H : ∀ n, ∃ f0, ∀ f, f0 ≤ f → (I f).Lawful n ∧
      (∀ k h r l F, l.length ≤ n → (I f).Obj h r l F → Prog.wp (fun _ => False) (Rd f k r) (fun x h' => h' = h ∧ P k l x) h) ∧
      (∀ h r l F, l.length ≤ n → (I f).Obj h r l F → Ob f h r l) ∧ (Lp f).Lawful (I f) L' n) (sc : Fin k → Script O K E)
    (hs : ∀ t, (sc t).Legal ok iok L (fun _ => True) (List.range (Book.init.exec ops).next) (Book.init.exec ops) ops.length) :
    ∃ f0, ∀ f, f0 ≤ f → ∃ s, OStore.init.exec (I f) ops = .ok s ∧
      CrewEnds id s.heap (fun t => (sc t).main (I f) (Rd f) (Lp f) ([], s.roots) .ret) (fun t => Comes P (Ob f) L (Book.init.exec ops) (sc t)) := by
  obtain ⟨n0, hn0⟩ := fin_bound fun t => legal_bounded hfun (sc t) _ _ _ (legal_mono hL' (sc t) _ _ _ (hs t))
  obtain ⟨f0, hf0⟩ := H (max n0 ops.length)
  refine ⟨f0, fun f hf => ?_⟩
  obtain ⟨g1, g2, g3, g4⟩ := hf0 f hf
  have lm : ∀ n, n ≤ max n0 ops.length → (I f).Lawful n := fun n hn =>
    ⟨g1.fresh_ok, g1.lt, g1.frame, fun l o r h F hl => g1.cow_ok l o r h F (by omega), fun l o r h F hl => g1.inp_ok l o r h F (by omega)⟩
  obtain ⟨s, e1, e2⟩ := obj_crew (N := (· ≤ max n0 ops.length)) lm ops (by omega) (by rw [hc, hi]; exact hl) (Rd f) P (Ob f)
    (fun n hn k h r l F hl => g2 k h r l F (by omega)) (fun n hn h r l F hl => g3 h r l F (by omega)) (Lp := Lp f) (L := L')
    (fun n hn => ⟨fun hl => g4.ok (by omega)⟩) sc (by rw [hc, hi]; exact hn0 _ (by omega))
  refine ⟨s, e1, e2.mono ?_⟩
  rintro t x h' ⟨l, a1, a2⟩
  exact ⟨l, unrolls_mono hL' (sc t) _ l a1, a2⟩

end Verif.Pipe
