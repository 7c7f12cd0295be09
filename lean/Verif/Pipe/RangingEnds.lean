import Verif.Heap.Fair
import Verif.Pipe.RangingSound

/-!
# What goroutines sharing a variable can rely on, with loops over Enumerate

The record follows what the goroutines were to do, nobody fails, no races, and all come to an end.
-/

namespace Verif.Pipe
open Verif.Heap Verif.Heap.Prog
variable {D T O R K A B E : Type}

/-! ## The record -/

/-- Event `e` takes goroutine `t` from the first to the second. -/
def RAct.On (t : T) : RAct O K A E → REvent T O K A E → RAct O K A E → Prop
  | .done, _, _ => False
  | .load c, e, g => e = .plain (.load t) ∧ g = c
  | .drop i c, e, g => e = .plain (.drop t i) ∧ g = c
  | .read i k c, e, g => ∃ x, e = .plain (.answer t i k x) ∧ g = c x
  | .lock c, e, g => e = .plain (.lock t) ∧ g = c
  | .call op c, e, g => e = .plain (.call t op) ∧ g = c
  | .store i c, e, g => e = .plain (.store t i) ∧ g = c
  | .unlock c, e, g => e = .plain (.unlock t) ∧ g = c
  | .range i c, e, g => e = .range t i ∧ g = c
  | .next ch c, e, g => ∃ x, e = .got t ch x ∧ g = c x

variable [DecidableEq T]

/-- The record takes the goroutines from `act` to `gs`: each did one thing after the other as `act` says, and `gs` is what is left. -/
inductive RFollows (act : T → RAct O K A E) : List (REvent T O K A E) → (T → RAct O K A E) → Prop where
  | nil : RFollows act [] act
  | snoc {log gs e t g} : RFollows act log gs → (gs t).On t e g → RFollows act (log ++ [e]) (fun u => if u = t then g else gs u)

omit [DecidableEq T] in
/-- What a goroutine has before it. -/
def RPhase.todo : RPhase D O R K A E → RAct O K A E
  | .idle g => g
  | .calling op _ g => .call op g
  | .reading i k _ c => .read i k c
  | .taking ch _ c => .next ch c

/-! ## What may go wrong -/

/-- The node goroutine `t` writes in its next step. -/
def RHub.writes (s : RHub D T O R K A B E) (t : T) : Option Nat := match (s.th t).phase with
  | .idle _ => none
  | .calling _ p _ => p.writes
  | .reading _ _ p _ => p.writes
  | .taking _ p _ => p.writes

/-- The node goroutine `t` reads or writes in its next step. -/
def RHub.touches (s : RHub D T O R K A B E) (t : T) : Option Nat := match (s.th t).phase with
  | .idle _ => none
  | .calling _ p _ => p.touches
  | .reading _ _ p _ => p.touches
  | .taking _ p _ => p.touches

/-- Goroutine `t` has failed (a panic, or the loop bound of the model used up). -/
def RHub.failed (s : RHub D T O R K A B E) (t : T) : Prop := match (s.th t).phase with
  | .idle _ => False
  | .calling _ p _ => ∃ e, p = .stop e
  | .reading _ _ p _ => ∃ e, p = .stop e
  | .taking _ p _ => ∃ e, p = .stop e

/-- Goroutine `t` has come to its end. -/
def RHub.ended (s : RHub D T O R K A B E) (t : T) : Prop := (s.th t).phase = .idle .done

/-- Goroutine `t` has something to do and does not wait, or what it waits for is under way: the goroutines behind its channel can go on. -/
def RHub.ready (s : RHub D T O R K A B E) (t : T) : Prop := match (s.th t).phase with
  | .idle .done => False
  | .idle (.lock _) => s.holder = none
  | .idle (.range i _) => i < (s.th t).roots.length
  | .idle (.next ch _) => ∃ p, (s.th t).chans[ch]? = some p ∧ ((∃ ks, p = .mk .done ks) ∨ (∃ p', PStep id s.heap p none p') ∨ ∃ b p', PStep id s.heap p (some b) p')
  | _ => True

/-- A step that changes something. -/
def RMove (I : OImpl D O R) (Rd : K → R → Prog D A) (Lp : Loop D R B E) (s s' : RHub D T O R K A B E) : Prop := RStep I Rd Lp s s' ∧ s' ≠ s

/-- The board at the start. -/
def RBoard.start (l : List O) : RBoard T O E := ⟨Board.start l, fun _ => []⟩

/-- What goroutines sharing the variable can rely on, at any point of a run: each has done one thing after the other as it was to; the record of events fits the board; neither they
nor the goroutines behind their channels have failed; no node is about to be written while another goroutine, or one behind a channel, is about to touch it; the variable shows what the
board says; who has not come to the end can go on or waits for the lock, whose holder can go on; and somebody can go on until all have come to the end. -/
structure RangePromise (I : OImpl D O R) (Rd : K → R → Prog D A) (Lp : Loop D R B E) (P : K → List O → A → Prop) (L : List O → List E → Prop) (Ob : Heap D → R → List O → Prop)
    (l : List O) (act : T → RAct O K A E) (s : RHub D T O R K A B E) : Prop where
  follows : RFollows act s.log fun t => (s.th t).phase.todo
  fits : (RBoard.start l).FitsAll P L s.log
  safe : ∀ t, ¬ s.failed t ∧ ∀ p ∈ (s.th t).chans, ¬ p.Bad s.heap
  norace : ∀ t u a, s.writes t = some a → (t ≠ u → s.touches u ≠ some a) ∧ ∀ p ∈ (s.th u).chans, ¬ p.AtRead a
  holder : ((RBoard.start l : RBoard T O E).replay s.log).board.holder = s.holder
  shows : Ob s.heap s.cur ((RBoard.start l : RBoard T O E).replay s.log).board.pub
  progress : ∀ t, s.ended t ∨ s.ready t ∨ ∃ u, s.holder = some u ∧ u ≠ t ∧ s.ready u
  moves : (∀ t, s.ended t) ∨ ∃ s', RMove I Rd Lp s s'

/-! ## The record follows the goroutines -/

theorem RHub.put_self (s : RHub D T O R K A B E) (t : T) (g : RGor D O R K A B E) : ((s.put t g).th t) = g := by simp [RHub.put]
theorem RHub.put_other (s : RHub D T O R K A B E) {t u : T} (g : RGor D O R K A B E) (h : u ≠ t) : ((s.put t g).th u) = s.th u := by simp [RHub.put, h]

/-- What a step does to the record. -/
def Says (s s' : RHub D T O R K A B E) : Prop :=
  (s'.log = s.log ∧ ∀ u, (s'.th u).phase.todo = (s.th u).phase.todo) ∨
    ∃ t e g, s'.log = s.log ++ [e] ∧ (s.th t).phase.todo.On t e g ∧ ∀ u, (s'.th u).phase.todo = if u = t then g else (s.th u).phase.todo

theorem says_quiet {s s' : RHub D T O R K A B E} {t : T} (h1 : s'.log = s.log) (h2 : ∀ u, u ≠ t → s'.th u = s.th u) (h3 : (s'.th t).phase.todo = (s.th t).phase.todo) : Says s s' := by
  refine .inl ⟨h1, fun u => ?_⟩
  by_cases e : u = t
  · rw [e, h3]
  · rw [h2 u e]

theorem says_event {s s' : RHub D T O R K A B E} {t : T} {e : REvent T O K A E} (g : RAct O K A E) (h1 : s'.log = s.log ++ [e]) (h2 : ∀ u, u ≠ t → s'.th u = s.th u)
    (h3 : (s'.th t).phase.todo = g) (h4 : (s.th t).phase.todo.On t e g) : Says s s' := by
  refine .inr ⟨t, e, g, h1, h4, fun u => ?_⟩
  by_cases e : u = t
  · rw [if_pos e, e, h3]
  · rw [if_neg e, h2 u e]

theorem act_says (I : OImpl D O R) (Rd : K → R → Prog D A) (Lp : Loop D R B E) (s : RHub D T O R K A B E) (t : T) : Says s (s.step I Rd Lp t) := by
  have ho : ∀ u, u ≠ t → (s.step I Rd Lp t).th u = s.th u := fun u hu => rstep_other Rd Lp s hu
  cases hp : (s.th t).phase with
  | idle g =>
    cases g with
    | done => exact .inl (by simp [RHub.step, hp])
    | load c => exact says_event c (by simp [RHub.step, hp, RHub.note, RHub.put]; rfl) ho (by simp [RHub.step, hp, RHub.note, RHub.put, RPhase.todo]) (by rw [hp]; exact ⟨rfl, rfl⟩)
    | drop i c => exact says_event c (by simp [RHub.step, hp, RHub.note, RHub.put]; rfl) ho (by simp [RHub.step, hp, RHub.note, RHub.put, RPhase.todo]) (by rw [hp]; exact ⟨rfl, rfl⟩)
    | read i k c =>
      cases hr : (s.th t).roots[i]? with
      | none =>
        exact says_event (c none) (by simp [RHub.step, hp, hr, RHub.note, RHub.put, RHub.to]; rfl) ho (by simp [RHub.step, hp, hr, RHub.note, RHub.put, RHub.to, RPhase.todo])
          (by rw [hp]; exact ⟨_, rfl, rfl⟩)
      | some r => exact says_quiet (by simp [RHub.step, hp, hr, RHub.put, RHub.to]) ho (by simp [RHub.step, hp, hr, RHub.put, RHub.to, RPhase.todo])
    | lock c =>
      cases hh : s.holder with
      | none => exact says_event c (by simp [RHub.step, hp, hh, RHub.note, RHub.put, RHub.to]; rfl) ho (by simp [RHub.step, hp, hh, RHub.note, RHub.put, RHub.to, RPhase.todo]) (by rw [hp]; exact ⟨rfl, rfl⟩)
      | some v => exact .inl (by simp [RHub.step, hp, hh])
    | call op c => exact says_quiet (by simp [RHub.step, hp, RHub.put, RHub.to]) ho (by simp [RHub.step, hp, RHub.put, RHub.to, RPhase.todo])
    | store i c => exact says_event c (by simp [RHub.step, hp, RHub.note, RHub.put, RHub.to]; rfl) ho (by simp [RHub.step, hp, RHub.note, RHub.put, RHub.to, RPhase.todo]) (by rw [hp]; exact ⟨rfl, rfl⟩)
    | unlock c => exact says_event c (by simp [RHub.step, hp, RHub.note, RHub.put, RHub.to]; rfl) ho (by simp [RHub.step, hp, RHub.note, RHub.put, RHub.to, RPhase.todo]) (by rw [hp]; exact ⟨rfl, rfl⟩)
    | range i c =>
      cases hr : (s.th t).roots[i]? with
      | none => exact .inl (by simp [RHub.step, hp, hr])
      | some r => exact says_event c (by simp [RHub.step, hp, hr, RHub.note, RHub.put]; rfl) ho (by simp [RHub.step, hp, hr, RHub.note, RHub.put, RPhase.todo]) (by rw [hp]; exact ⟨rfl, rfl⟩)
    | next ch c => exact .inl (by simp [RHub.step, hp])
  | calling op p c =>
    cases p with
    | ret rs => exact says_event c (by simp [RHub.step, hp, RHub.note, RHub.put]; rfl) ho (by simp [RHub.step, hp, RHub.note, RHub.put, RPhase.todo]) (by rw [hp]; exact ⟨rfl, rfl⟩)
    | stop e => exact .inl (by simp [RHub.step, hp, Prog.step])
    | read a k => exact says_quiet (by cases hm : s.heap.mem a <;> simp [RHub.step, hp, Prog.step, hm, RHub.put, RHub.to]) ho (by cases hm : s.heap.mem a <;> simp [RHub.step, hp, Prog.step, hm, RHub.put, RHub.to, RPhase.todo])
    | write a x k => exact says_quiet (by simp [RHub.step, hp, Prog.step, RHub.put, RHub.to]) ho (by simp [RHub.step, hp, Prog.step, RHub.put, RHub.to, RPhase.todo])
    | alloc x k => exact says_quiet (by simp [RHub.step, hp, Prog.step, RHub.put, RHub.to]) ho (by simp [RHub.step, hp, Prog.step, RHub.put, RHub.to, RPhase.todo])
  | reading i k p c =>
    cases p with
    | ret a => exact says_event (c (some a)) (by simp [RHub.step, hp, RHub.note, RHub.put, RHub.to]; rfl) ho (by simp [RHub.step, hp, RHub.note, RHub.put, RHub.to, RPhase.todo]) (by rw [hp]; exact ⟨_, rfl, rfl⟩)
    | stop e => exact .inl (by simp [RHub.step, hp, Prog.step])
    | read a k => exact says_quiet (by cases hm : s.heap.mem a <;> simp [RHub.step, hp, Prog.step, hm, RHub.put, RHub.to]) ho (by cases hm : s.heap.mem a <;> simp [RHub.step, hp, Prog.step, hm, RHub.put, RHub.to, RPhase.todo])
    | write a x k => exact says_quiet (by simp [RHub.step, hp, Prog.step, RHub.put, RHub.to]) ho (by simp [RHub.step, hp, Prog.step, RHub.put, RHub.to, RPhase.todo])
    | alloc x k => exact says_quiet (by simp [RHub.step, hp, Prog.step, RHub.put, RHub.to]) ho (by simp [RHub.step, hp, Prog.step, RHub.put, RHub.to, RPhase.todo])
  | taking ch p c =>
    cases p with
    | ret a => exact says_event (c (some a)) (by simp [RHub.step, hp, RHub.note, RHub.put, RHub.to]; rfl) ho (by simp [RHub.step, hp, RHub.note, RHub.put, RHub.to, RPhase.todo]) (by rw [hp]; exact ⟨_, rfl, rfl⟩)
    | stop e => exact .inl (by simp [RHub.step, hp, Prog.step])
    | read a k => exact says_quiet (by cases hm : s.heap.mem a <;> simp [RHub.step, hp, Prog.step, hm, RHub.put, RHub.to]) ho (by cases hm : s.heap.mem a <;> simp [RHub.step, hp, Prog.step, hm, RHub.put, RHub.to, RPhase.todo])
    | write a x k => exact says_quiet (by simp [RHub.step, hp, Prog.step, RHub.put, RHub.to]) ho (by simp [RHub.step, hp, Prog.step, RHub.put, RHub.to, RPhase.todo])
    | alloc x k => exact says_quiet (by simp [RHub.step, hp, Prog.step, RHub.put, RHub.to]) ho (by simp [RHub.step, hp, Prog.step, RHub.put, RHub.to, RPhase.todo])

theorem RStep.says {I : OImpl D O R} {Rd : K → R → Prog D A} {Lp : Loop D R B E} {s s' : RHub D T O R K A B E} (st : RStep I Rd Lp s s') : Says s s' := by
  cases st with
  | act t => exact act_says I Rd Lp s t
  | @walk t ch p p' h1 h2 => exact says_quiet (t := t) rfl (fun u hu => RHub.put_other s _ hu) (by rw [RHub.put_self])
  | @recv t ch c p p' b e h1 h2 => exact says_quiet (t := t) rfl (fun u hu => RHub.put_other s _ hu) (by rw [RHub.put_self, e]; rfl)
  | @closed t ch c ks e h1 =>
    exact says_event (t := t) (c none) rfl (fun u hu => RHub.put_other s _ hu) (by simp [RHub.note, RHub.to, RHub.put, RPhase.todo]) (by rw [e]; exact ⟨none, rfl, rfl⟩)

theorem Says.follows {act : T → RAct O K A E} {s s' : RHub D T O R K A B E} (h : Says s s') (hs : RFollows act s.log fun t => (s.th t).phase.todo) :
    RFollows act s'.log fun t => (s'.th t).phase.todo := by
  rcases h with ⟨h1, h2⟩ | ⟨t, e, g, h1, h2, h3⟩
  · rw [h1, show (fun u => (s'.th u).phase.todo) = _ from funext h2]; exact hs
  · rw [h1, show (fun u => (s'.th u).phase.todo) = _ from funext h3]; exact hs.snoc h2

theorem runs_follows {I : OImpl D O R} {Rd : K → R → Prog D A} {Lp : Loop D R B E} {act : T → RAct O K A E} {s s' : RHub D T O R K A B E} {k : Nat} (hr : Spec.Runs (RStep I Rd Lp) k s s')
    (hs : RFollows act s.log fun t => (s.th t).phase.todo) : RFollows act s'.log fun t => (s'.th t).phase.todo := by
  induction hr with
  | refl => exact hs
  | step _ st ih => exact st.says.follows (ih hs)

/-! ## Less and less to do -/

/-- What is left of a goroutine after one step. -/
inductive RPhase.Less : RPhase D O R K A E → RPhase D O R K A E → Prop where
  | load (c) : Less (.idle c) (.idle (.load c))
  | drop (i c) : Less (.idle c) (.idle (.drop i c))
  | none (i k c) : Less (.idle (c none)) (.idle (.read i k c))
  | read (i k c p) : Less (.reading i k p c) (.idle (.read i k c))
  | lock (c) : Less (.idle c) (.idle (.lock c))
  | call (op p c) : Less (.calling op p c) (.idle (.call op c))
  | store (i c) : Less (.idle c) (.idle (.store i c))
  | unlock (c) : Less (.idle c) (.idle (.unlock c))
  | range (i c) : Less (.idle c) (.idle (.range i c))
  | recv (ch p c) : Less (.taking ch p c) (.idle (.next ch c))
  | closed (ch c) : Less (.idle (c none)) (.idle (.next ch c))
  | called (op rs c) : Less (.idle c) (.calling op (.ret rs) c)
  | calling (op p q c) : Prog.Less q p → Less (.calling op q c) (.calling op p c)
  | answer (i k a c) : Less (.idle (c (some a))) (.reading i k (.ret a) c)
  | reading (i k p q c) : Prog.Less q p → Less (.reading i k q c) (.reading i k p c)
  | got (ch e c) : Less (.idle (c (some e))) (.taking ch (.ret e) c)
  | taking (ch p q c) : Prog.Less q p → Less (.taking ch q c) (.taking ch p c)

omit [DecidableEq T] in
theorem RPhase.acc_calling {op : SOp O} {c : RAct O K A E} (h : Acc (RPhase.Less (D := D) (R := R)) (.idle c)) (p : Prog D (List R)) : Acc RPhase.Less (.calling op p c) := by
  induction p with
  | ret rs => exact ⟨_, fun y hy => by cases hy with | called => exact h | calling _ _ _ _ hl => cases hl⟩
  | stop e => exact ⟨_, fun y hy => by cases hy with | calling _ _ _ _ hl => cases hl⟩
  | read a k ih =>
    have hs : ∀ e, Acc RPhase.Less (.calling op (.stop e : Prog D (List R)) c) := fun e => ⟨_, fun y hy => by cases hy with | calling _ _ _ _ hl => cases hl⟩
    exact ⟨_, fun y hy => by cases hy with | calling _ _ _ _ hl => cases hl with | read => exact ih _ | miss => exact hs _⟩
  | write a c k ih => exact ⟨_, fun y hy => by cases hy with | calling _ _ _ _ hl => cases hl; exact ih⟩
  | alloc c k ih => exact ⟨_, fun y hy => by cases hy with | calling _ _ _ _ hl => cases hl; exact ih _⟩

omit [DecidableEq T] in
theorem RPhase.acc_reading {i : Nat} {k : K} {c : Option A → RAct O K A E} (h : ∀ x, Acc (RPhase.Less (D := D) (R := R)) (.idle (c x))) (p : Prog D A) :
    Acc RPhase.Less (.reading i k p c : RPhase D O R K A E) := by
  induction p with
  | ret rs => exact ⟨_, fun y hy => by cases hy with | answer => exact h _ | reading _ _ _ _ _ hl => cases hl⟩
  | stop e => exact ⟨_, fun y hy => by cases hy with | reading _ _ _ _ _ hl => cases hl⟩
  | read a k' ih =>
    have hs : ∀ e, Acc RPhase.Less (.reading i k (.stop e) c : RPhase D O R K A E) := fun e => ⟨_, fun y hy => by cases hy with | reading _ _ _ _ _ hl => cases hl⟩
    exact ⟨_, fun y hy => by cases hy with | reading _ _ _ _ _ hl => cases hl with | read => exact ih _ | miss => exact hs _⟩
  | write a c k ih => exact ⟨_, fun y hy => by cases hy with | reading _ _ _ _ _ hl => cases hl; exact ih⟩
  | alloc c k ih => exact ⟨_, fun y hy => by cases hy with | reading _ _ _ _ _ hl => cases hl; exact ih _⟩

omit [DecidableEq T] in
theorem RPhase.acc_taking {ch : Nat} {c : Option E → RAct O K A E} (h : ∀ x, Acc (RPhase.Less (D := D) (R := R)) (.idle (c x))) (p : Prog D E) :
    Acc RPhase.Less (.taking ch p c : RPhase D O R K A E) := by
  induction p with
  | ret rs => exact ⟨_, fun y hy => by cases hy with | got => exact h _ | taking _ _ _ _ hl => cases hl⟩
  | stop e => exact ⟨_, fun y hy => by cases hy with | taking _ _ _ _ hl => cases hl⟩
  | read a k' ih =>
    have hs : ∀ e, Acc RPhase.Less (.taking ch (.stop e) c : RPhase D O R K A E) := fun e => ⟨_, fun y hy => by cases hy with | taking _ _ _ _ hl => cases hl⟩
    exact ⟨_, fun y hy => by cases hy with | taking _ _ _ _ hl => cases hl with | read => exact ih _ | miss => exact hs _⟩
  | write a c k ih => exact ⟨_, fun y hy => by cases hy with | taking _ _ _ _ hl => cases hl; exact ih⟩
  | alloc c k ih => exact ⟨_, fun y hy => by cases hy with | taking _ _ _ _ hl => cases hl; exact ih _⟩

omit [DecidableEq T] in
theorem RPhase.acc_idle (g : RAct O K A E) : Acc (RPhase.Less (D := D) (R := R)) (.idle g) := by
  induction g with
  | done => exact ⟨_, fun y hy => by cases hy⟩
  | load c ih => exact ⟨_, fun y hy => by cases hy; exact ih⟩
  | drop i c ih => exact ⟨_, fun y hy => by cases hy; exact ih⟩
  | read i k c ih => exact ⟨_, fun y hy => by cases hy with | none => exact ih _ | read => exact acc_reading ih _⟩
  | lock c ih => exact ⟨_, fun y hy => by cases hy; exact ih⟩
  | call op c ih => exact ⟨_, fun y hy => by cases hy; exact acc_calling ih _⟩
  | store i c ih => exact ⟨_, fun y hy => by cases hy; exact ih⟩
  | unlock c ih => exact ⟨_, fun y hy => by cases hy; exact ih⟩
  | range i c ih => exact ⟨_, fun y hy => by cases hy; exact ih⟩
  | next ch c ih => exact ⟨_, fun y hy => by cases hy with | recv => exact acc_taking ih _ | closed => exact ih _⟩

omit [DecidableEq T] in
theorem RPhase.less_wf : WellFounded (RPhase.Less (D := D) (O := O) (R := R) (K := K) (A := A) (E := E)) := ⟨fun x => by
  cases x with
  | idle g => exact acc_idle g
  | calling op p c => exact acc_calling (acc_idle c) p
  | reading i k p c => exact acc_reading (fun x => acc_idle _) p
  | taking ch p c => exact acc_taking (fun x => acc_idle _) p⟩

theorem wf_irrefl {X : Type} {lt : X → X → Prop} (hwf : WellFounded lt) (x : X) : ¬ lt x x := by
  have := hwf.apply x
  induction this with
  | intro x _ ih => exact fun h => ih x h h

/-- A step of a goroutine makes less of what it has before it, unless it has ended, waits or has failed. -/
theorem RHub.step_self (I : OImpl D O R) (Rd : K → R → Prog D A) (Lp : Loop D R B E) (s : RHub D T O R K A B E) (t : T) :
    RPhase.Less ((s.step I Rd Lp t).th t).phase (s.th t).phase ∨ s.step I Rd Lp t = s ∧ (s.ready t → s.failed t ∨ ∃ ch c, (s.th t).phase = .idle (.next ch c)) := by
  cases hp : (s.th t).phase with
  | idle g =>
    cases g with
    | done => exact .inr (by simp [RHub.step, hp, RHub.ready])
    | load c => exact .inl (by simp only [RHub.step, hp, RHub.put, RHub.note, if_true]; constructor)
    | drop i c => exact .inl (by simp only [RHub.step, hp, RHub.put, RHub.note, if_true]; constructor)
    | read i k c =>
      refine .inl ?_
      cases hr : (s.th t).roots[i]? <;> (simp only [RHub.step, hp, hr, RHub.put, RHub.to, RHub.note, if_true]; constructor)
    | lock c =>
      cases hh : s.holder with
      | none => exact .inl (by simp only [RHub.step, hp, hh, RHub.put, RHub.to, RHub.note, if_true]; constructor)
      | some v => exact .inr (by simp [RHub.step, hp, hh, RHub.ready])
    | call op c => exact .inl (by simp only [RHub.step, hp, RHub.put, RHub.to, if_true]; constructor)
    | store i c => exact .inl (by simp only [RHub.step, hp, RHub.put, RHub.to, RHub.note, if_true]; constructor)
    | unlock c => exact .inl (by simp only [RHub.step, hp, RHub.put, RHub.to, RHub.note, if_true]; constructor)
    | range i c =>
      cases hr : (s.th t).roots[i]? with
      | none =>
        refine .inr ⟨by simp [RHub.step, hp, hr], fun h => ?_⟩
        simp only [RHub.ready, hp] at h
        rw [List.getElem?_eq_getElem h] at hr
        cases hr
      | some r => exact .inl (by simp only [RHub.step, hp, hr, RHub.put, RHub.note, if_true]; constructor)
    | next ch c => exact .inr ⟨by simp [RHub.step, hp], fun _ => .inr ⟨ch, c, rfl⟩⟩
  | calling op p c =>
    cases hs : p.step s.heap with
    | none =>
      cases p with
      | ret rs => exact .inl (by simp only [RHub.step, hp, RHub.put, RHub.note, if_true]; constructor)
      | stop e => exact .inr (by simp [RHub.step, hp, Prog.step, RHub.failed])
      | read a k => simp only [Prog.step] at hs; split at hs <;> cases hs
      | write a c k => cases hs
      | alloc c k => cases hs
    | some qh =>
      cases p with
      | ret rs => cases hs
      | stop e => cases hs
      | _ => exact .inl (by simp only [RHub.step, hp, hs, RHub.put, RHub.to, if_true]; exact .calling _ _ _ _ (Prog.step_less hs))
  | reading i k p c =>
    cases hs : p.step s.heap with
    | none =>
      cases p with
      | ret rs => exact .inl (by simp only [RHub.step, hp, RHub.put, RHub.to, RHub.note, if_true]; constructor)
      | stop e => exact .inr (by simp [RHub.step, hp, Prog.step, RHub.failed])
      | read a k => simp only [Prog.step] at hs; split at hs <;> cases hs
      | write a c k => cases hs
      | alloc c k => cases hs
    | some qh =>
      cases p with
      | ret rs => cases hs
      | stop e => cases hs
      | _ => exact .inl (by simp only [RHub.step, hp, hs, RHub.put, RHub.to, if_true]; exact .reading _ _ _ _ _ (Prog.step_less hs))
  | taking ch p c =>
    cases hs : p.step s.heap with
    | none =>
      cases p with
      | ret rs => exact .inl (by simp only [RHub.step, hp, RHub.put, RHub.to, RHub.note, if_true]; constructor)
      | stop e => exact .inr (by simp [RHub.step, hp, Prog.step, RHub.failed])
      | read a k => simp only [Prog.step] at hs; split at hs <;> cases hs
      | write a c k => cases hs
      | alloc c k => cases hs
    | some qh =>
      cases p with
      | ret rs => cases hs
      | stop e => cases hs
      | _ => exact .inl (by simp only [RHub.step, hp, hs, RHub.put, RHub.to, if_true]; exact .taking _ _ _ _ (Prog.step_less hs))

/-- A step that changes something makes less of what a goroutine has before it, or is one behind a channel. -/
theorem RMove.less {I : OImpl D O R} {Rd : K → R → Prog D A} {Lp : Loop D R B E} {s s' : RHub D T O R K A B E} (st : RMove I Rd Lp s s') :
    (∃ t, RPhase.Less (s'.th t).phase (s.th t).phase ∧ ∀ u, u ≠ t → s'.th u = s.th u) ∨
    ∃ t ch p p', (s.th t).chans[ch]? = some p ∧ PStep id s.heap p none p' ∧ s' = s.put t { s.th t with chans := (s.th t).chans.set ch p' } := by
  obtain ⟨st, hne⟩ := st
  cases st with
  | act t =>
    rcases s.step_self I Rd Lp t with h | h
    · exact .inl ⟨t, h, fun u hu => rstep_other Rd Lp s hu⟩
    · exact absurd h.1 hne
  | @walk t ch p p' h1 h2 => exact .inr ⟨t, ch, p, p', h1, h2, rfl⟩
  | @recv t ch c p p' b e h1 h2 => exact .inl ⟨t, by rw [RHub.put_self, e]; constructor, fun u hu => RHub.put_other s _ hu⟩
  | @closed t ch c ks e h1 => exact .inl ⟨t, by simp only [RHub.note, RHub.to, RHub.put, if_true, e]; constructor, fun u hu => RHub.put_other s _ hu⟩

/-! ## Channels -/

/-- Goroutines with steps left, at most `N` in all. -/
inductive Steps (h : Heap D) : List (Proc (Cell D) B) → Nat → Prop where
  | nil : Steps h [] 0
  | cons {p ps pin l n N} : Holds id pin h → p.Good pin l n → Steps h ps N → Steps h (p :: ps) (n + N)

omit [DecidableEq T] in
theorem steps_of {h : Heap D} : ∀ {ps : List (Proc (Cell D) B)}, (∀ p ∈ ps, ∃ pin l n, Holds id pin h ∧ p.Good pin l n) → ∃ N, Steps h ps N
  | [], _ => ⟨0, .nil⟩
  | p :: ps, hp => by
    obtain ⟨pin, l, n, h1, h2⟩ := hp p (by simp)
    obtain ⟨N, h3⟩ := steps_of (ps := ps) fun q hq => hp q (by simp [hq])
    exact ⟨_, .cons h1 h2 h3⟩

omit [DecidableEq T] in
theorem Steps.walk {h : Heap D} : ∀ {ps : List (Proc (Cell D) B)} {N ch : Nat} {p p' : Proc (Cell D) B}, Steps h ps N → ps[ch]? = some p → PStep id h p none p' →
    ∃ N', N' < N ∧ Steps h (ps.set ch p') N'
  | [], _, _, _, _, _, hp, _ => by simp at hp
  | q :: ps, _, 0, p, p', .cons h1 h2 h3, hp, st => by
    cases hp
    obtain ⟨l', n', b1, _, b3⟩ := st.sound h1 h2
    exact ⟨_, Nat.add_lt_add_right b3 _, .cons h1 b1 h3⟩
  | q :: ps, _, ch + 1, p, p', .cons h1 h2 h3, hp, st => by
    obtain ⟨N', c1, c2⟩ := h3.walk (by simpa using hp) st
    exact ⟨_, Nat.add_lt_add_left c1 _, .cons h1 h2 c2⟩

/-- The same for the channels of several goroutines. -/
inductive StepsAll (h : Heap D) (f : T → List (Proc (Cell D) B)) : List T → Nat → Prop where
  | nil : StepsAll h f [] 0
  | cons {t ts n N} : Steps h (f t) n → StepsAll h f ts N → StepsAll h f (t :: ts) (n + N)

omit [DecidableEq T] in
theorem stepsAll_of {h : Heap D} {f : T → List (Proc (Cell D) B)} (hp : ∀ t, ∀ p ∈ f t, ∃ pin l n, Holds id pin h ∧ p.Good pin l n) : ∀ ts, ∃ N, StepsAll h f ts N
  | [] => ⟨0, .nil⟩
  | t :: ts => by
    obtain ⟨n, h1⟩ := steps_of (hp t)
    obtain ⟨N, h2⟩ := stepsAll_of hp ts
    exact ⟨_, .cons h1 h2⟩

theorem StepsAll.walk {h : Heap D} {f : T → List (Proc (Cell D) B)} {t : T} {ch : Nat} {p p' : Proc (Cell D) B} (hp : (f t)[ch]? = some p) (st : PStep id h p none p')
    {f' : T → List (Proc (Cell D) B)} (hf : ∀ u, f' u = if u = t then (f t).set ch p' else f u) :
    ∀ {ts : List T} {N : Nat}, StepsAll h f ts N → ∃ N', N' ≤ N ∧ (t ∈ ts → N' < N) ∧ StepsAll h f' ts N'
  | _, _, .nil => ⟨0, Nat.le_refl _, by simp, .nil⟩
  | _, _, @StepsAll.cons _ _ _ _ _ u ts n N h1 h2 => by
    obtain ⟨N', a1, a2, a3⟩ := StepsAll.walk hp st hf h2
    by_cases e : u = t
    · subst e
      obtain ⟨n', b1, b2⟩ := h1.walk hp st
      exact ⟨n' + N', by omega, fun _ => by omega, .cons (by rw [hf u, if_pos rfl]; exact b2) a3⟩
    · refine ⟨n + N', by omega, fun h => ?_, .cons (by rw [hf u, if_neg e]; exact h1) a3⟩
      rcases List.mem_cons.1 h with h | h
      · exact absurd h.symm e
      · have := a2 h; omega

omit [DecidableEq T] in
theorem wf_settles {X : Type} {lt : X → X → Prop} (hwf : WellFounded lt) (x : Nat → X) (hx : ∀ i, x (i + 1) = x i ∨ lt (x (i + 1)) (x i)) (n : Nat) : ∃ m, n ≤ m ∧ ∀ k, m ≤ k → x k = x m := by
  suffices h : ∀ y n, x n = y → ∃ m, n ≤ m ∧ ∀ k, m ≤ k → x k = x m from h _ n rfl
  intro y
  induction y using hwf.induction with
  | _ y ih =>
    intro n hn
    by_cases h : ∃ k, n ≤ k ∧ lt (x k) y
    · obtain ⟨k, h1, h2⟩ := h
      obtain ⟨m, m1, m2⟩ := ih _ h2 k rfl
      exact ⟨m, by omega, m2⟩
    · refine ⟨n, Nat.le_refl _, fun k hk => ?_⟩
      induction k with
      | zero =>
        have : n = 0 := by omega
        rw [this]
      | succ k ihk =>
        by_cases hnk : n = k + 1
        · rw [hnk]
        have e := ihk (by omega)
        rcases hx k with h1 | h1
        · rw [h1, e]
        · rw [e, hn] at h1
          exact absurd ⟨k + 1, by omega, h1⟩ h

/-- Finitely many goroutines have only finitely many steps before them, whatever the order. -/
theorem moves_end {I : OImpl D O R} {Rd : K → R → Prog D A} {Lp : Loop D R B E} {ts : List T} (hts : ∀ t, t ∈ ts) (σ : Nat → RHub D T O R K A B E)
    (hch : ∀ i t, ∀ p ∈ ((σ i).th t).chans, ∃ pin l n, Holds id pin (σ i).heap ∧ p.Good pin l n) (hm : ∀ i, RMove I Rd Lp (σ i) (σ (i + 1))) : False := by
  have hall : ∀ l : List T, ∃ m, ∀ u ∈ l, ∀ k, m ≤ k → ((σ k).th u).phase = ((σ m).th u).phase := by
    intro l
    induction l with
    | nil => exact ⟨0, by simp⟩
    | cons v l ih =>
      obtain ⟨m, hm'⟩ := ih
      obtain ⟨m', h1, h2⟩ := wf_settles RPhase.less_wf (fun i => ((σ i).th v).phase) (fun i => by
        rcases (hm i).less with ⟨t, h1, h2⟩ | ⟨t, ch, p, p', _, _, h3⟩
        · by_cases e : v = t
          · subst e; exact .inr h1
          · exact .inl (by rw [h2 v e])
        · refine .inl ?_
          show ((σ (i + 1)).th v).phase = _
          rw [h3]
          by_cases e : v = t
          · subst e; rw [RHub.put_self]
          · rw [RHub.put_other _ _ e]) m
      refine ⟨m', fun u hu k hk => ?_⟩
      rcases List.mem_cons.1 hu with rfl | hu
      · exact h2 k hk
      · rw [hm' u hu k (by omega), hm' u hu m' h1]
  obtain ⟨n, hn⟩ := hall ts
  have hw : ∀ i, n ≤ i → ∃ t ch p p', ((σ i).th t).chans[ch]? = some p ∧ PStep id (σ i).heap p none p' ∧
      σ (i + 1) = (σ i).put t { (σ i).th t with chans := ((σ i).th t).chans.set ch p' } := by
    intro i hi
    rcases (hm i).less with ⟨t, h1, _⟩ | h
    · rw [hn t (hts t) (i + 1) (by omega), hn t (hts t) i hi] at h1
      exact absurd h1 (wf_irrefl RPhase.less_wf _)
    · exact h
  have key : ∀ N i, n ≤ i → ¬ StepsAll (σ i).heap (fun t => ((σ i).th t).chans) ts N := by
    intro N
    induction N using Nat.strongRecOn with
    | _ N ih =>
      intro i hi hs
      obtain ⟨t, ch, p, p', h1, h2, h3⟩ := hw i hi
      obtain ⟨N', _, a2, a3⟩ := StepsAll.walk (f := fun t => ((σ i).th t).chans) (f' := fun u => ((σ (i + 1)).th u).chans) (t := t) h1 h2 (fun u => by
        simp only [h3]
        by_cases e : u = t
        · subst e; rw [RHub.put_self, if_pos rfl]
        · rw [RHub.put_other _ _ e, if_neg e]) hs
      refine ih N' (a2 (hts t)) (i + 1) (by omega) ?_
      have : (σ (i + 1)).heap = (σ i).heap := by rw [h3]; rfl
      rw [this]; exact a3
  obtain ⟨N, hN⟩ := stepsAll_of (hch n) ts
  exact key N n (Nat.le_refl _) hN

/-! ## Runs -/

theorem ranging_runs {I : OImpl D O R} {n base m : Nat} (hI : I.Lawful n) (Rd : K → R → Prog D A) (P : K → List O → A → Prop) {Lp : Loop D R B E} {L : List O → List E → Prop}
    (hR : ∀ k h r l F, l.length ≤ n → I.Obj h r l F → wp (fun _ => False) (Rd k r) (fun x h' => h' = h ∧ P k l x) h) (hL : Lp.Lawful I L n)
    {s s' : RHub D T O R K A B E} {rb : RBoard T O E} {bk b : T → Book O} {sh : T → List Bool} {qs : T → List (List E)}
    (hi : RInv I Lp P L base m s rb bk b sh qs) {k : Nat} (hr : Spec.Runs (RStep I Rd Lp) k s s') (hm : m + k ≤ n) :
    ∃ base' bk' b' sh' qs' es, s'.log = s.log ++ es ∧ rb.FitsAll P L es ∧ RInv I Lp P L base' (m + k) s' (rb.replay es) bk' b' sh' qs' := by
  induction hr with
  | refl => exact ⟨base, bk, b, sh, qs, [], by simp, trivial, hi⟩
  | @step x y z k hr st ih =>
    obtain ⟨base', bk', b', sh', qs', es, h1, h2, h3⟩ := ih hi (by omega)
    obtain ⟨base2, bk2, b2, sh2, qs2, es2, i1, i2, i3⟩ := ranging_step (m' := m + (k + 1)) hI Rd P hR hL (by omega) (by omega) h3 st (fun _ _ _ _ _ => ⟨by omega, by omega⟩)
    refine ⟨base2, bk2, b2, sh2, qs2, es ++ es2, by rw [i1, h1, List.append_assoc], ?_, ?_⟩
    · rw [RBoard.fitsAll_append]; exact ⟨h2, i2⟩
    · rw [RBoard.replay_append]; exact i3

omit [DecidableEq T] in
/-- The goroutine makes at most so many calls. -/
def RAct.AtMost : RAct O K A E → Nat → Prop
  | .done, _ => True
  | .load c, n => c.AtMost n
  | .drop _ c, n => c.AtMost n
  | .read _ _ c, n => ∀ x, (c x).AtMost n
  | .lock c, n => c.AtMost n
  | .call _ c, n => ∃ m, n = m + 1 ∧ c.AtMost m
  | .store _ c, n => c.AtMost n
  | .unlock c, n => c.AtMost n
  | .range _ c, n => c.AtMost n
  | .next _ c, n => ∀ x, (c x).AtMost n

omit [DecidableEq T] in
/-- The goroutine begins at most so many calls from here on. -/
def RPhase.AtMost : RPhase D O R K A E → Nat → Prop
  | .idle g, n => g.AtMost n
  | .calling _ _ g, n => g.AtMost n
  | .reading _ _ _ c, n => ∀ x, (c x).AtMost n
  | .taking _ _ c, n => ∀ x, (c x).AtMost n

omit [DecidableEq T] in
theorem RPhase.Less.atMost {x y : RPhase D O R K A E} (h : RPhase.Less x y) {n : Nat} (hy : y.AtMost n) :
    (∀ op c, y ≠ .idle (.call op c)) ∧ x.AtMost n ∨ ∃ m, n = m + 1 ∧ x.AtMost m := by
  cases h with
  | call op p c =>
    obtain ⟨m, rfl, h⟩ := hy
    exact .inr ⟨m, rfl, h⟩
  | load c => exact .inl ⟨by simp, hy⟩
  | drop i c => exact .inl ⟨by simp, hy⟩
  | none i k c => exact .inl ⟨by simp, hy Option.none⟩
  | read i k c p => exact .inl ⟨by simp, hy⟩
  | lock c => exact .inl ⟨by simp, hy⟩
  | store i c => exact .inl ⟨by simp, hy⟩
  | unlock c => exact .inl ⟨by simp, hy⟩
  | range i c => exact .inl ⟨by simp, hy⟩
  | recv ch p c => exact .inl ⟨by simp, hy⟩
  | closed ch c => exact .inl ⟨by simp, hy Option.none⟩
  | called op rs c => exact .inl ⟨by simp, hy⟩
  | calling op p q c hl => exact .inl ⟨by simp, hy⟩
  | answer i k a c => exact .inl ⟨by simp, hy (some a)⟩
  | reading i k p q c hl => exact .inl ⟨by simp, hy⟩
  | got ch e c => exact .inl ⟨by simp, hy (some e)⟩
  | taking ch p q c hl => exact .inl ⟨by simp, hy⟩

/-- As `ranging_runs`, for goroutines that make at most so many calls, in runs of any length. -/
theorem ranging_runs_atMost {I : OImpl D O R} {n base m : Nat} (hI : I.Lawful n) (Rd : K → R → Prog D A) (P : K → List O → A → Prop) {Lp : Loop D R B E} {L : List O → List E → Prop}
    (hR : ∀ k h r l F, l.length ≤ n → I.Obj h r l F → wp (fun _ => False) (Rd k r) (fun x h' => h' = h ∧ P k l x) h) (hL : Lp.Lawful I L n) {ts : List T} (hts : ∀ t, t ∈ ts)
    {s s' : RHub D T O R K A B E} {rb : RBoard T O E} {bk b : T → Book O} {sh : T → List Bool} {qs : T → List (List E)}
    (hi : RInv I Lp P L base m s rb bk b sh qs) {j : Nat} (hr : Spec.Runs (RStep I Rd Lp) j s s') {k : T → Nat} (hk : ∀ t, (s.th t).phase.AtMost (k t)) (hm : m + (ts.map k).sum ≤ n) :
    ∃ base' bk' b' sh' qs' es m' k', s'.log = s.log ++ es ∧ rb.FitsAll P L es ∧ RInv I Lp P L base' m' s' (rb.replay es) bk' b' sh' qs' ∧
      (∀ t, (s'.th t).phase.AtMost (k' t)) ∧ m' + (ts.map k').sum ≤ n := by
  induction hr with
  | refl => exact ⟨base, bk, b, sh, qs, [], m, k, by simp, trivial, hi, hk, hm⟩
  | @step x y z j hr st ih =>
    obtain ⟨base', bk', b', sh', qs', es, m1, k1, h1, h2, h3, h4, h5⟩ := ih hi hk
    have key : ∃ m2 k2, m1 ≤ m2 ∧ (∀ t op c, (y.th t).phase = .idle (.call op c) → z = y.step I Rd Lp t → m1 < n ∧ m1 < m2) ∧ (∀ t, (z.th t).phase.AtMost (k2 t)) ∧
        m2 + (ts.map k2).sum ≤ n := by
      by_cases hz : z = y
      · refine ⟨m1, k1, Nat.le_refl _, fun t op c e hs => ?_, by rw [hz]; exact h4, h5⟩
        exfalso
        have := congrArg (fun s => (s.th t).phase) (hz.symm.trans hs)
        simp only [RHub.step, e, RHub.to, RHub.put, if_true] at this
        cases this
      · rcases (show RMove I Rd Lp y z from ⟨st, hz⟩).less with ⟨t, l1, l2⟩ | ⟨t, ch, p, p', w1, w2, w3⟩
        · have huniq : ∀ u op c, (y.th u).phase = .idle (.call op c) → z = y.step I Rd Lp u → u = t := by
            intro u op c e hs
            refine Classical.byContradiction fun hne => ?_
            have := congrArg RGor.phase (l2 u hne)
            rw [hs, e] at this
            simp only [RHub.step, e, RHub.to, RHub.put, if_true] at this
            cases this
          rcases l1.atMost (h4 t) with ⟨a1, a2⟩ | ⟨j, a1, a2⟩
          · refine ⟨m1, k1, Nat.le_refl _, fun u op c e hs => ?_, fun u => ?_, h5⟩
            · have := huniq u op c e hs
              subst this
              exact absurd e (a1 op c)
            · by_cases e : u = t
              · subst e; exact a2
              · rw [l2 u e]; exact h4 u
          · have hs := (sum_less a1 ts).2 (hts t)
            refine ⟨m1 + 1, fun u => if u = t then j else k1 u, by omega, fun _ _ _ _ _ => ⟨by omega, by omega⟩, fun u => ?_, by omega⟩
            by_cases e : u = t
            · subst e; simpa using a2
            · rw [l2 u e]; simpa [e] using h4 u
        · refine ⟨m1, k1, Nat.le_refl _, fun u op c e hs => ?_, fun u => ?_, h5⟩
          · exfalso
            have := congrArg (fun s => (s.th u).phase) (w3.symm.trans hs)
            simp only [RHub.step, e, RHub.to, RHub.put, if_true] at this
            by_cases e' : u = t
            · subst e'; simp [e] at this
            · simp [e', e] at this
          · rw [w3]
            by_cases e : u = t
            · subst e; rw [RHub.put_self]; exact h4 u
            · rw [RHub.put_other _ _ e]; exact h4 u
    obtain ⟨m2, k2, c1, c2, c3, c4⟩ := key
    obtain ⟨base2, bk2, b2, sh2, qs2, es2, i1, i2, i3⟩ := ranging_step (m' := m2) hI Rd P hR hL (by omega) c1 h3 st c2
    refine ⟨base2, bk2, b2, sh2, qs2, es ++ es2, m2, k2, by rw [i1, h1, List.append_assoc], ?_, ?_, c3, c4⟩
    · rw [RBoard.fitsAll_append]; exact ⟨h2, i2⟩
    · rw [RBoard.replay_append]; exact i3

theorem ranging_start {I : OImpl D O R} {m : Nat} {Lp : Loop D R B E} (P : K → List O → A → Prop) (L : List O → List E → Prop) {h : Heap D} (hk : h.Ok) {r : R} {l : List O}
    {F : Addr → Prop} (ho : I.Obj h r l F) (hl : l.length ≤ m) (act : T → RAct O K A E) (ha : ∀ t, (act t).Legal I.cowOk I.inpOk P L false ⟨1, []⟩ [] []) :
    RInv I Lp P L h.next m (RHub.start h r act) (RBoard.start l) (fun _ => ⟨1, []⟩) (fun _ => ⟨1, []⟩) (fun _ => []) (fun _ => []) := by
  refine ⟨?_, fun t => ⟨ha t, rfl, fun h => by simp [RHub.start] at h, ⟨rfl, fun ch p es h1 h2 => by simp [RHub.start] at h1⟩, ⟨rfl, fun ch x es h1 h2 => by simp [RBoard.start] at h1⟩⟩⟩
  exact hub_start (T := T) (PL P L) hk ho hl (fun t => (act t).plain []) fun t => (ha t).plain

/-! ## The promise -/

section Promise
variable {I : OImpl D O R} {Lp : Loop D R B E} {P : K → List O → A → Prop} {L : List O → List E → Prop} {base m : Nat} {s : RHub D T O R K A B E} {rb : RBoard T O E}
  {bk b : T → Book O} {sh : T → List Bool} {qs : T → List (List E)}

theorem RInv.chan (hi : RInv I Lp P L base m s rb bk b sh qs) (t : T) {p : Proc (Cell D) B} (hp : p ∈ (s.th t).chans) :
    ∃ pin l n, Holds id pin s.heap ∧ p.Good pin l n ∧ ∀ a, pin a ≠ none → a < base := by
  obtain ⟨ch, hlt, hp⟩ := List.getElem_of_mem hp
  have hp : (s.th t).chans[ch]? = some p := by rw [List.getElem?_eq_getElem hlt, hp]
  have hc := (hi.2 t).chans
  have hb : ((s.th t).phase.behind (qs t)).length = (qs t).length := by
    cases (s.th t).phase <;> simp [RPhase.behind]
  exact (hc.2 ch p _ hp (List.getElem?_eq_getElem (by rw [hb, ← hc.1]; exact hlt))).holds

theorem RInv.phase_reading (hi : RInv I Lp P L base m s rb bk b sh qs) {t : T} {i : Nat} {k : K} {p : Prog D A} {c : Option A → RAct O K A E} (hp : (s.th t).phase = .reading i k p c) :
    ∃ (G : A ⊕ List E → Prop) (hs : Heap D), Since hs s.heap ∧ (hs.next ≤ base ∨ s.holder = some t) ∧ wp (fun _ => False) (p >>= fun a => pure (.inl a)) (fun x h' => h' = hs ∧ G x) hs := by
  have hg := hi.1.gor t
  unfold GorInv at hg
  have e : ((s.plain qs).th t).phase = (RPhase.reading i k p c : RPhase D O R K A E).plain (qs t) := by simp only [RHub.plain, hp]
  rw [e] at hg
  obtain ⟨_, v, _, _, hs, h3, h4, h5⟩ := hg
  exact ⟨_, hs, h3, h4.imp id of_decide_eq_true, h5⟩

theorem RInv.phase_calling (hi : RInv I Lp P L base m s rb bk b sh qs) {t : T} {op : SOp O} {p : Prog D (List R)} {c : RAct O K A E} (hp : (s.th t).phase = .calling op p c) :
    s.holder = some t ∧ ∃ G, wp (fun a => base ≤ a) p G s.heap := by
  have hg := hi.1.gor t
  unfold GorInv at hg
  have e : ((s.plain qs).th t).phase = (RPhase.calling op p c : RPhase D O R K A E).plain (qs t) := by simp only [RHub.plain, hp]
  rw [e] at hg
  exact ⟨of_decide_eq_true hg.1, _, hg.2.2⟩

theorem RInv.writes (hi : RInv I Lp P L base m s rb bk b sh qs) {t : T} {a : Nat} (hw : s.writes t = some a) : s.holder = some t ∧ base ≤ a := by
  unfold RHub.writes at hw
  split at hw
  · cases hw
  · rename_i op p g hp
    obtain ⟨h1, G, h2⟩ := hi.phase_calling hp
    refine ⟨h1, ?_⟩
    cases p with
    | write b c k => simp only [Prog.writes, Option.some.injEq] at hw; subst hw; exact h2.1
    | ret x => cases hw
    | stop x => cases hw
    | read x k => cases hw
    | alloc x k => cases hw
  · rename_i i k p c hp
    obtain ⟨G, hs, _, _, h⟩ := hi.phase_reading hp
    cases p with
    | write b c k => exact h.1.elim
    | ret x => cases hw
    | stop x => cases hw
    | read x k => cases hw
    | alloc x k => cases hw
  · rename_i ch p c hp
    have h := (hi.2 t).phase
    rw [hp] at h
    obtain ⟨e, es, hs, _, _, _, _, h⟩ := h
    rcases read_next h with ⟨x, rfl, _⟩ | ⟨a, kk, c0, rfl, _, _⟩ <;> cases hw

theorem RInv.touches (hi : RInv I Lp P L base m s rb bk b sh qs) {t : T} {a : Nat} (hw : s.touches t = some a) : s.holder = some t ∨ a < base := by
  unfold RHub.touches at hw
  split at hw
  · cases hw
  · rename_i op p g hp
    exact .inl (hi.phase_calling hp).1
  · rename_i i k p c hp
    obtain ⟨G, hs, h1, h2, h⟩ := hi.phase_reading hp
    rcases h2 with h2 | h2
    · refine .inr ?_
      rcases read_next h with ⟨x, e, _⟩ | ⟨b, kk, c0, e, r, _⟩
      · cases p with
        | ret x => cases hw
        | stop x => cases hw
        | read x k => cases e
        | write b c k => cases e
        | alloc x k => cases e
      · have := h1.ok.lt r
        cases p with
        | ret x => cases hw
        | stop x => cases hw
        | read x k =>
          simp only [Prog.touches, Option.some.injEq] at hw
          subst hw
          cases e
          omega
        | write b c k => cases e
        | alloc x k => cases e
    · exact .inl h2
  · rename_i ch p c hp
    have h := (hi.2 t).phase
    rw [hp] at h
    obtain ⟨e, es, hs, _, _, h1, h2, h⟩ := h
    rcases read_next h with ⟨x, rfl, _⟩ | ⟨b, kk, c0, rfl, r, _⟩
    · cases hw
    · simp only [Prog.touches, Option.some.injEq] at hw
      subst hw
      have := h1.ok.lt r
      exact .inr (by omega)

theorem RInv.safe (hi : RInv I Lp P L base m s rb bk b sh qs) (t : T) : ¬ s.failed t := by
  unfold RHub.failed
  split
  · exact id
  · rename_i hp
    rintro ⟨e, rfl⟩
    obtain ⟨_, G, h⟩ := hi.phase_calling hp
    exact h
  · rename_i hp
    rintro ⟨e, rfl⟩
    obtain ⟨G, hs, _, _, h⟩ := hi.phase_reading hp
    exact h
  · rename_i hp
    rintro ⟨e, rfl⟩
    have h := (hi.2 t).phase
    rw [hp] at h
    obtain ⟨_, _, hs, _, _, _, _, h⟩ := h
    exact h

/-- Who waits for something from a channel can go on. -/
theorem RInv.ready_next (hi : RInv I Lp P L base m s rb bk b sh qs) {t : T} {ch : Nat} {c : Option E → RAct O K A E} (hp : (s.th t).phase = .idle (.next ch c)) :
    ∃ p, (s.th t).chans[ch]? = some p ∧ ((∃ ks, p = .mk .done ks) ∨ (∃ p', PStep id s.heap p none p') ∨ ∃ b p', PStep id s.heap p (some b) p') := by
  have h := (hi.2 t).phase
  rw [hp] at h
  obtain ⟨es, h1, _⟩ := h
  have hlt : ch < (s.th t).chans.length := by rw [(hi.2 t).chans.1]; exact (List.getElem?_eq_some_iff.1 h1).1
  refine ⟨_, List.getElem?_eq_getElem hlt, ?_⟩
  obtain ⟨pin, l, n, k1, k2, _⟩ := hi.chan t (List.getElem_mem hlt)
  exact Pipe.progress k1 _ k2

theorem RInv.ready_range (hi : RInv I Lp P L base m s rb bk b sh qs) {t : T} {i : Nat} {c : RAct O K A E} (hp : (s.th t).phase = .idle (.range i c)) : i < (s.th t).roots.length := by
  have h := (hi.2 t).phase
  rw [hp] at h
  obtain ⟨v, h1, _⟩ := h
  rw [(hi.roots t hp).2.2, (hi.2 t).trees, List.length_map]
  exact (List.getElem?_eq_some_iff.1 h1).1

theorem RInv.progress (hi : RInv I Lp P L base m s rb bk b sh qs) (t : T) : s.ended t ∨ s.ready t ∨ ∃ u, s.holder = some u ∧ u ≠ t ∧ s.ready u := by
  have rd : ∀ u, s.holder = some u → s.ready u := by
    intro u hu
    have hg := (hi.2 u).phase
    unfold RHub.ready
    split
    · rename_i hp
      rw [hp] at hg
      simp [hu, PhaseInv, RAct.Legal] at hg
    · rename_i hp
      rw [hp] at hg
      simp [hu, PhaseInv, RAct.Legal] at hg
    · rename_i hp
      exact hi.ready_range hp
    · rename_i hp
      exact hi.ready_next hp
    · trivial
  by_cases h1 : s.ended t
  · exact .inl h1
  · by_cases h2 : s.ready t
    · exact .inr (.inl h2)
    · cases hh : s.holder with
      | none =>
        exfalso
        apply h2
        unfold RHub.ready
        split
        · rename_i hp; exact h1 hp
        · exact hh
        · rename_i hp; exact hi.ready_range hp
        · rename_i hp; exact hi.ready_next hp
        · trivial
      | some u =>
        refine .inr (.inr ⟨u, rfl, ?_, rd u hh⟩)
        rintro rfl
        exact h2 (rd u hh)

/-- A step of goroutines behind a channel changes something. -/
theorem pstep_ne {h : Heap D} {p p' : Proc (Cell D) B} {pin : Pin (Cell D)} {l : List B} {n : Nat} (hk : Holds id pin h) (hg : p.Good pin l n) (st : PStep id h p none p') : p' ≠ p := by
  rintro rfl
  have : ∀ n l, ¬ p'.Good pin l n := by
    intro n
    induction n using Nat.strongRecOn with
    | _ n ih =>
      intro l hg
      obtain ⟨l', n', b1, _, b3⟩ := st.sound hk hg
      exact ih n' b3 l' b1
  exact this n l hg

theorem RInv.ready_moves (Rd : K → R → Prog D A) (hi : RInv I Lp P L base m s rb bk b sh qs) {t : T} (h : s.ready t) : ∃ s', RMove I Rd Lp s s' := by
  rcases s.step_self I Rd Lp t with h1 | h1
  · refine ⟨_, .act t, fun e => ?_⟩
    rw [e] at h1
    exact wf_irrefl RPhase.less_wf _ h1
  · rcases h1.2 h with h2 | ⟨ch, c, h2⟩
    · exact absurd h2 (hi.safe t)
    · obtain ⟨p, hp, h3 | ⟨p', h3⟩ | ⟨b', p', h3⟩⟩ := hi.ready_next h2
      · obtain ⟨ks, rfl⟩ := h3
        refine ⟨_, .closed h2 hp, fun e => ?_⟩
        have := congrArg (fun s => s.log.length) e
        simp [RHub.note, RHub.to, RHub.put] at this
      · refine ⟨_, .walk hp h3, fun e => ?_⟩
        obtain ⟨pin, l, n, k1, k2, _⟩ := hi.chan t (List.mem_of_getElem? hp)
        have := congrArg (fun s => ((s.th t).chans)[ch]?) e
        simp only [RHub.put_self, hp] at this
        rw [List.getElem?_set_self (List.getElem?_eq_some_iff.1 hp).1] at this
        exact pstep_ne k1 k2 h3 (by simpa using this)
      · refine ⟨_, .recv h2 hp h3, fun e => ?_⟩
        have := congrArg (fun s => (s.th t).phase) e
        simp only [RHub.put_self, h2] at this
        cases this

theorem RInv.promise {n : Nat} (hI : I.Lawful n) (Rd : K → R → Prog D A) {Ob : Heap D → R → List O → Prop} (hO : ∀ h r l F, l.length ≤ n → I.Obj h r l F → Ob h r l) (hm : m ≤ n)
    {l : List O} {act : T → RAct O K A E} (hf : RFollows act s.log fun t => (s.th t).phase.todo) (hfit : (RBoard.start l).FitsAll P L s.log)
    (hi : RInv I Lp P L base m s ((RBoard.start l).replay s.log) bk b sh qs) : RangePromise I Rd Lp P L Ob l act s := by
  refine ⟨hf, hfit, fun t => ⟨hi.safe t, fun p hp hb => ?_⟩, fun t u a hw => ⟨fun hne ht => ?_, fun p hp hr => ?_⟩, hi.1.holder, ?_, hi.progress, ?_⟩
  · obtain ⟨pin, l, n, k1, k2, _⟩ := hi.chan t hp
    exact not_bad k1 hb k2
  · obtain ⟨w1, w2⟩ := hi.writes hw
    rcases hi.touches ht with h | h
    · rw [w1] at h; cases h; exact hne rfl
    · omega
  · obtain ⟨w1, w2⟩ := hi.writes hw
    obtain ⟨pin, l, n, k1, k2, k3⟩ := hi.chan u hp
    have := k3 a (hr.pinned k2)
    omega
  · obtain ⟨F, f1, _, f2⟩ := hi.1.cur.obj hI
    exact hO _ _ _ _ (by omega) f1
  · by_cases h : ∀ t, s.ended t
    · exact .inl h
    · refine .inr ?_
      have ⟨t, ht⟩ := Classical.not_forall.1 h
      rcases hi.progress t with h | h | ⟨u, _, _, h⟩
      · exact absurd h ht
      · exact hi.ready_moves Rd h
      · exact hi.ready_moves Rd h

end Promise

/-- What goroutines sharing a variable can rely on: `RangePromise` in every state they can get to, and they have only finitely many steps to make, whatever the order. -/
structure RangeEnds (I : OImpl D O R) (Rd : K → R → Prog D A) (Lp : Loop D R B E) (P : K → List O → A → Prop) (L : List O → List E → Prop) (Ob : Heap D → R → List O → Prop)
    (l : List O) (act : T → RAct O K A E) (s : RHub D T O R K A B E) : Prop where
  promise : ∀ k s', Spec.Runs (RStep I Rd Lp) k s s' → RangePromise I Rd Lp P L Ob l act s'
  ends : ∀ ts : List T, (∀ t, t ∈ ts) → ∀ σ : Nat → RHub D T O R K A B E, σ 0 = s → ¬ ∀ i, RMove I Rd Lp (σ i) (σ (i + 1))

/-- In every run of at most `N` steps. -/
def RangeUpTo (N : Nat) (I : OImpl D O R) (Rd : K → R → Prog D A) (Lp : Loop D R B E) (P : K → List O → A → Prop) (L : List O → List E → Prop) (Ob : Heap D → R → List O → Prop)
    (l : List O) (act : T → RAct O K A E) (s : RHub D T O R K A B E) : Prop :=
  ∀ k s', k ≤ N → Spec.Runs (RStep I Rd Lp) k s s' → RangePromise I Rd Lp P L Ob l act s'

theorem seq_runs {I : OImpl D O R} {Rd : K → R → Prog D A} {Lp : Loop D R B E} {σ : Nat → RHub D T O R K A B E} (hm : ∀ i, RMove I Rd Lp (σ i) (σ (i + 1))) :
    ∀ i, Spec.Runs (RStep I Rd Lp) i (σ 0) (σ i)
  | 0 => .refl _
  | i + 1 => .step (seq_runs hm i) (hm i).1

/-- Trees whose size does not matter. -/
theorem ranging_sound {I : OImpl D O R} (hI : ∀ n, I.Lawful n) (ops : List (SOp O)) (hl : (Book.init : Book O).LegalAll2 I.cowOk I.inpOk ops)
    (Rd : K → R → Prog D A) (P : K → List O → A → Prop) (Ob : Heap D → R → List O → Prop) {Lp : Loop D R B E} {L : List O → List E → Prop}
    (hR : ∀ k h r l F, I.Obj h r l F → wp (fun _ => False) (Rd k r) (fun x h' => h' = h ∧ P k l x) h)
    (hO : ∀ h r l F, I.Obj h r l F → Ob h r l) (hL : ∀ n, Lp.Lawful I L n) (act : T → RAct O K A E)
    (ha : ∀ t, (act t).Legal I.cowOk I.inpOk P L false ⟨1, []⟩ [] []) :
    ∃ s, OStore.init.exec I ops = .ok s ∧ ∀ (i : Nat) r v, s.roots[i]? = some r → (Book.init.exec ops).vs[i]? = some v →
      RangeEnds I Rd Lp P L Ob v.2 act (RHub.start s.heap r act) := by
  obtain ⟨s, e, i1⟩ := oexec_inv (hI ops.length) (oinv_init I) ops (by omega) hl
  refine ⟨s, e, fun i r v hr hv => ?_⟩
  obtain ⟨F, f1, f2⟩ := i1.get hr hv
  have h0 := ranging_start (Lp := Lp) (T := T) P L i1.ok f1 (by omega : v.2.length ≤ ops.length) act ha
  have run : ∀ k s', Spec.Runs (RStep I Rd Lp) k (RHub.start s.heap r act) s' → ∃ base bk b sh qs, (RBoard.start v.2).FitsAll P L s'.log ∧
      RInv I Lp P L base (ops.length + k) s' ((RBoard.start v.2).replay s'.log) bk b sh qs := by
    intro k s' hr
    obtain ⟨base, bk, b, sh, qs, es, h1, h2, h3⟩ := ranging_runs (n := ops.length + k) (hI _) Rd P (fun k h r l F _ => hR k h r l F) (hL _) h0 hr (Nat.le_refl _)
    have h1 : s'.log = es := by rw [h1]; rfl
    exact ⟨base, bk, b, sh, qs, by rw [h1]; exact h2, by rw [h1]; exact h3⟩
  refine ⟨fun k s' hr => ?_, fun ts hts σ h hm => ?_⟩
  · obtain ⟨base, bk, b, sh, qs, h1, h2⟩ := run k s' hr
    exact h2.promise (hI (ops.length + k)) Rd (fun h r l F _ => hO h r l F) (Nat.le_refl _) (runs_follows hr .nil) h1
  · refine moves_end hts σ (fun i t p hp => ?_) hm
    obtain ⟨base, bk, b, sh, qs, _, h2⟩ := run i (σ i) (by rw [← h]; exact seq_runs hm i)
    obtain ⟨pin, l, n, k1, k2, _⟩ := h2.chan t hp
    exact ⟨pin, l, n, k1, k2⟩

/-- Goroutines that make at most so many calls. -/
theorem ranging_sound_atMost {I : OImpl D O R} {n : Nat} (hI : I.Lawful n) (ops : List (SOp O)) (hl : (Book.init : Book O).LegalAll2 I.cowOk I.inpOk ops)
    (Rd : K → R → Prog D A) (P : K → List O → A → Prop) (Ob : Heap D → R → List O → Prop) {Lp : Loop D R B E} {L : List O → List E → Prop}
    (hR : ∀ k h r l F, l.length ≤ n → I.Obj h r l F → wp (fun _ => False) (Rd k r) (fun x h' => h' = h ∧ P k l x) h)
    (hO : ∀ h r l F, l.length ≤ n → I.Obj h r l F → Ob h r l) (hL : Lp.Lawful I L n) {ts : List T} (hts : ∀ t, t ∈ ts) (act : T → RAct O K A E)
    (ha : ∀ t, (act t).Legal I.cowOk I.inpOk P L false ⟨1, []⟩ [] []) (k : T → Nat) (hk : ∀ t, (act t).AtMost (k t)) (hn : ops.length + (ts.map k).sum ≤ n) :
    ∃ s, OStore.init.exec I ops = .ok s ∧ ∀ (i : Nat) r v, s.roots[i]? = some r → (Book.init.exec ops).vs[i]? = some v →
      RangeEnds I Rd Lp P L Ob v.2 act (RHub.start s.heap r act) := by
  obtain ⟨s, e, i1⟩ := oexec_inv hI (oinv_init I) ops (by omega) hl
  refine ⟨s, e, fun i r v hr hv => ?_⟩
  obtain ⟨F, f1, f2⟩ := i1.get hr hv
  have h0 := ranging_start (Lp := Lp) (T := T) P L i1.ok f1 (by omega : v.2.length ≤ ops.length) act ha
  have run : ∀ j s', Spec.Runs (RStep I Rd Lp) j (RHub.start s.heap r act) s' → ∃ base bk b sh qs m, m ≤ n ∧ (RBoard.start v.2).FitsAll P L s'.log ∧
      RInv I Lp P L base m s' ((RBoard.start v.2).replay s'.log) bk b sh qs := by
    intro j s' hr
    obtain ⟨base, bk, b, sh, qs, es, m, k', h1, h2, h3, _, h4⟩ := ranging_runs_atMost hI Rd P hR hL hts h0 hr (k := k) hk hn
    have h1 : s'.log = es := by rw [h1]; rfl
    exact ⟨base, bk, b, sh, qs, m, by omega, by rw [h1]; exact h2, by rw [h1]; exact h3⟩
  refine ⟨fun j s' hr => ?_, fun ts hts σ h hm => ?_⟩
  · obtain ⟨base, bk, b, sh, qs, m, h0, h1, h2⟩ := run j s' hr
    exact h2.promise hI Rd hO h0 (runs_follows hr .nil) h1
  · refine moves_end hts σ (fun i t p hp => ?_) hm
    obtain ⟨base, bk, b, sh, qs, m, _, _, h2⟩ := run i (σ i) (by rw [← h]; exact seq_runs hm i)
    obtain ⟨pin, l, n, k1, k2, _⟩ := h2.chan t hp
    exact ⟨pin, l, n, k1, k2⟩

/-- Runs of at most `N` steps, whatever number of calls the goroutines make. -/
theorem ranging_sound_upTo {I : OImpl D O R} {n : Nat} (hI : I.Lawful n) (ops : List (SOp O)) (hl : (Book.init : Book O).LegalAll2 I.cowOk I.inpOk ops)
    (Rd : K → R → Prog D A) (P : K → List O → A → Prop) (Ob : Heap D → R → List O → Prop) {Lp : Loop D R B E} {L : List O → List E → Prop}
    (hR : ∀ k h r l F, l.length ≤ n → I.Obj h r l F → wp (fun _ => False) (Rd k r) (fun x h' => h' = h ∧ P k l x) h)
    (hO : ∀ h r l F, l.length ≤ n → I.Obj h r l F → Ob h r l) (hL : Lp.Lawful I L n) (act : T → RAct O K A E)
    (ha : ∀ t, (act t).Legal I.cowOk I.inpOk P L false ⟨1, []⟩ [] []) (N : Nat) (hn : ops.length + N ≤ n) :
    ∃ s, OStore.init.exec I ops = .ok s ∧ ∀ (i : Nat) r v, s.roots[i]? = some r → (Book.init.exec ops).vs[i]? = some v →
      RangeUpTo N I Rd Lp P L Ob v.2 act (RHub.start s.heap r act) := by
  obtain ⟨s, e, i1⟩ := oexec_inv hI (oinv_init I) ops (by omega) hl
  refine ⟨s, e, fun i r v hr hv k s' hk hr' => ?_⟩
  obtain ⟨F, f1, f2⟩ := i1.get hr hv
  have h0 := ranging_start (Lp := Lp) (T := T) P L i1.ok f1 (by omega : v.2.length ≤ ops.length) act ha
  obtain ⟨base, bk, b, sh, qs, es, h1, h2, h3⟩ := ranging_runs hI Rd P hR hL h0 hr' (by omega)
  have h1 : s'.log = es := by rw [h1]; rfl
  rw [← h1] at h2 h3
  exact h3.promise hI Rd hO (by omega) (runs_follows hr' .nil) h2

/-! ## Loops to the end -/

/-- The listing may be taken to be shorter than the bound on rounds. -/
theorem Loop.Lawful.short {I : OImpl D O R} {Lp : Loop D R B E} {L L' : List O → List E → Prop} {n : Nat} (hL : Lp.Lawful I L n)
    (h : ∀ l es, L l es → es.length < Lp.rounds → L' l es) : Lp.Lawful I L' n where
  ok := by
    intro h0 r l F hl ho
    obtain ⟨bs, es, k, h1, h2, h3, h4, h5⟩ := hL.ok hl ho
    exact ⟨bs, es, k, h1, h2, h l es h3 (by omega), h4, h5⟩

/-- `for e := range ch { body }` and then `k`.  In the body, `c` is the next round; a body that goes on with something else leaves the loop.  The number bounds the rounds; channels
deliver fewer values than the bound of the model (`Loop.rounds`). -/
def RAct.loop (ch : Nat) (body : E → RAct O K A E → RAct O K A E) (k : RAct O K A E) : Nat → RAct O K A E
  | 0 => .done
  | n + 1 => .next ch fun
    | none => k
    | some e => body e (RAct.loop ch body k n)

/-- A rule for loops: `J` holds of the trees held before every round. -/
theorem RAct.Legal.loop {ok iok : List O → O → Prop} {P : K → List O → A → Prop} {L : List O → List E → Prop} {lk : Bool} {ch : Nat}
    {body : E → RAct O K A E → RAct O K A E} {k : RAct O K A E} (J : Book O → List Bool → Prop)
    (hb : ∀ e c b sh qs, J b sh → (∀ b' sh' qs', J b' sh' → qs'[ch]? = qs[ch]? → c.Legal ok iok P L lk b' sh' qs') → (body e c).Legal ok iok P L lk b sh qs)
    (hk : ∀ b sh qs, J b sh → k.Legal ok iok P L lk b sh qs) : ∀ {es : List E} {n : Nat} {b : Book O} {sh : List Bool} {qs : List (List E)},
      es.length < n → qs[ch]? = some es → J b sh → (RAct.loop ch body k n).Legal ok iok P L lk b sh qs
  | [], n + 1, b, sh, qs, _, hq, hj => ⟨[], hq, hk _ _ _ hj⟩
  | e :: es, n + 1, b, sh, qs, hn, hq, hj => by
    have hlt : ch < qs.length := List.getElem?_eq_some_iff.1 hq |>.1
    refine ⟨e :: es, hq, hb e _ b sh _ hj fun b' sh' qs' hj' hq' => RAct.Legal.loop J hb hk (by simpa using hn) ?_ hj'⟩
    rw [hq', List.tail_cons, List.getElem?_set_self hlt]

/-- Only the steps of calls matter. -/
theorem rstep_congr {I I' : OImpl D O R} (h : ∀ rs op, stepP I rs op = stepP I' rs op) (Rd : K → R → Prog D A) (Lp : Loop D R B E) :
    RStep (T := T) I Rd Lp = RStep I' Rd Lp := by
  have e : ∀ (s : RHub D T O R K A B E) t, s.step I Rd Lp t = s.step I' Rd Lp t := by
    intro s t
    simp only [RHub.step, h]
  funext s s'
  refine propext ⟨fun st => ?_, fun st => ?_⟩
  · cases st with
    | act t => rw [e]; exact .act t
    | walk h1 h2 => exact .walk h1 h2
    | recv h1 h2 h3 => exact .recv h1 h2 h3
    | closed h1 h2 => exact .closed h1 h2
  · cases st with
    | act t => rw [← e]; exact .act t
    | walk h1 h2 => exact .walk h1 h2
    | recv h1 h2 h3 => exact .recv h1 h2 h3
    | closed h1 h2 => exact .closed h1 h2

theorem RangePromise.congr {I I' : OImpl D O R} (h : ∀ rs op, stepP I rs op = stepP I' rs op) {Rd : K → R → Prog D A} {Lp : Loop D R B E} {P : K → List O → A → Prop}
    {L : List O → List E → Prop} {Ob : Heap D → R → List O → Prop} {l : List O} {act : T → RAct O K A E} {s : RHub D T O R K A B E} (hp : RangePromise I Rd Lp P L Ob l act s) :
    RangePromise I' Rd Lp P L Ob l act s :=
  ⟨hp.follows, hp.fits, hp.safe, hp.norace, hp.holder, hp.shows, hp.progress, by
    rcases hp.moves with hm | ⟨s', hm⟩
    · exact .inl hm
    · refine .inr ⟨s', ?_⟩
      unfold RMove at hm ⊢
      rw [← rstep_congr h Rd Lp]; exact hm⟩

end Verif.Pipe
