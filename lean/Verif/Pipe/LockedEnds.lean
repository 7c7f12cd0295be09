import Verif.Pipe.Locked
import Verif.Pipe.RangingEnds

/-!
# What goroutines sharing a tree under a read-write lock can rely on, with loops over Enumerate

The record follows what the goroutines were to do, nobody fails, no races, and all come to an end.
-/

namespace Verif.Pipe
open Verif.Heap Verif.Heap.Prog
variable {D T O R K A B E : Type}

/-! ## The record -/

/-- Event `e` takes goroutine `t` from the first to the second. -/
def LAct.On (t : T) : LAct O K A E → LEvent T O K A E → LAct O K A E → Prop
  | .done, _, _ => False
  | .lock c, e, g => e = .plain (.lock t) ∧ g = c
  | .unlock c, e, g => e = .plain (.unlock t) ∧ g = c
  | .rlock c, e, g => e = .plain (.rlock t) ∧ g = c
  | .runlock c, e, g => e = .plain (.runlock t) ∧ g = c
  | .change _ o c, e, g => e = .plain (.change t o) ∧ g = c
  | .read k c, e, g => ∃ x, e = .plain (.answer t k x) ∧ g = c x
  | .range c, e, g => e = .range t ∧ g = c
  | .next ch c, e, g => ∃ x, e = .got t ch x ∧ g = c x

variable [DecidableEq T]

/-- The record takes the goroutines from `act` to `gs`: each did one thing after the other as `act` says, and `gs` is what is left. -/
inductive LFollows (act : T → LAct O K A E) : List (LEvent T O K A E) → (T → LAct O K A E) → Prop where
  | nil : LFollows act [] act
  | snoc {log gs e t g} : LFollows act log gs → (gs t).On t e g → LFollows act (log ++ [e]) (fun u => if u = t then g else gs u)

omit [DecidableEq T] in
/-- What a goroutine has before it. -/
def LPhase.todo : LPhase D O R K A E → LAct O K A E
  | .idle g => g
  | .changing cow o _ g => .change cow o g
  | .reading k _ c => .read k c
  | .taking ch _ c => .next ch c

/-! ## What may go wrong -/

/-- The node goroutine `t` writes in its next step. -/
def LHub.writes (s : LHub D T O R K A B E) (t : T) : Option Nat := match (s.th t).phase with
  | .idle _ => none
  | .changing _ _ p _ => p.writes
  | .reading _ p _ => p.writes
  | .taking _ p _ => p.writes

/-- The node goroutine `t` reads or writes in its next step. -/
def LHub.touches (s : LHub D T O R K A B E) (t : T) : Option Nat := match (s.th t).phase with
  | .idle _ => none
  | .changing _ _ p _ => p.touches
  | .reading _ p _ => p.touches
  | .taking _ p _ => p.touches

/-- Goroutine `t` has failed (a panic, or the loop bound of the model used up). -/
def LHub.failed (s : LHub D T O R K A B E) (t : T) : Prop := match (s.th t).phase with
  | .idle _ => False
  | .changing _ _ p _ => ∃ e, p = .stop e
  | .reading _ p _ => ∃ e, p = .stop e
  | .taking _ p _ => ∃ e, p = .stop e

/-- Goroutine `t` has come to its end. -/
def LHub.ended (s : LHub D T O R K A B E) (t : T) : Prop := (s.th t).phase = .idle .done

/-- Goroutine `t` has something to do and does not wait, or what it waits for is under way: the goroutines behind its channel can go on. -/
def LHub.ready (s : LHub D T O R K A B E) (t : T) : Prop := match (s.th t).phase with
  | .idle .done => False
  | .idle (.lock _) => s.writer = none ∧ s.readers = []
  | .idle (.rlock _) => s.writer = none
  | .idle (.next ch _) => ∃ p, (s.th t).chans[ch]? = some p ∧ ((∃ ks, p = .mk .done ks) ∨ (∃ p', PStep id s.heap p none p') ∨ ∃ b p', PStep id s.heap p (some b) p')
  | _ => True

/-- A step that changes something. -/
def LMove (I : OImpl D O R) (Rd : K → R → Prog D A) (Lp : Loop D R B E) (s s' : LHub D T O R K A B E) : Prop := LStep I Rd Lp s s' ∧ s' ≠ s

/-- The board at the start. -/
def LBoard.start (l : List O) : LBoard T O E := ⟨GBoard.start l, fun _ => []⟩

/-- What goroutines sharing the tree can rely on, at any point of a run: each has done one thing after the other as it was to; the record of events fits the board; sections are
atomic; neither they nor the goroutines behind their channels have failed; no node is about to be written while another goroutine, or one behind a channel, is about to touch it;
whenever nobody is in the middle of a change the tree is what the board says; who has not come to the end can go on or waits for the lock, which somebody has who can go on; and
somebody can go on until all have come to the end. -/
structure LockPromise (I : OImpl D O R) (Rd : K → R → Prog D A) (Lp : Loop D R B E) (P : K → List O → A → Prop) (L : List O → List E → Prop) (Ob : Heap D → R → List O → Prop)
    (l : List O) (act : T → LAct O K A E) (s : LHub D T O R K A B E) : Prop where
  follows : LFollows act s.log fun t => (s.th t).phase.todo
  fits : (LBoard.start l).FitsAll P L s.log
  sections : LSections s.log
  safe : ∀ t, ¬ s.failed t ∧ ∀ p ∈ (s.th t).chans, ¬ p.Bad s.heap
  norace : ∀ t u a, s.writes t = some a → (t ≠ u → s.touches u ≠ some a) ∧ ∀ p ∈ (s.th u).chans, ¬ p.AtRead a
  writer : ((LBoard.start l : LBoard T O E).replay s.log).board.writer = s.writer
  readers : ((LBoard.start l : LBoard T O E).replay s.log).board.readers = s.readers
  shows : (∀ t, ¬ s.inChange t) → Ob s.heap s.root ((LBoard.start l : LBoard T O E).replay s.log).board.tree
  progress : ∀ t, s.ended t ∨ s.ready t ∨ ∃ u, (s.writer = some u ∨ u ∈ s.readers) ∧ u ≠ t ∧ s.ready u
  moves : (∀ t, s.ended t) ∨ ∃ s', LMove I Rd Lp s s'

/-! ## The record follows the goroutines -/

theorem lstep_other {I : OImpl D O R} (Rd : K → R → Prog D A) (Lp : Loop D R B E) (s : LHub D T O R K A B E) {t u : T} (h : u ≠ t) : (s.step I Rd Lp t).th u = s.th u := by
  unfold LHub.step
  split <;> (try split) <;> simp [LHub.to, LHub.put, LHub.note, h]

/-- What a step does to the record. -/
def LSays (s s' : LHub D T O R K A B E) : Prop :=
  (s'.log = s.log ∧ ∀ u, (s'.th u).phase.todo = (s.th u).phase.todo) ∨
    ∃ t e g, s'.log = s.log ++ [e] ∧ (s.th t).phase.todo.On t e g ∧ ∀ u, (s'.th u).phase.todo = if u = t then g else (s.th u).phase.todo

theorem lsays_quiet {s s' : LHub D T O R K A B E} {t : T} (h1 : s'.log = s.log) (h2 : ∀ u, u ≠ t → s'.th u = s.th u) (h3 : (s'.th t).phase.todo = (s.th t).phase.todo) : LSays s s' := by
  refine .inl ⟨h1, fun u => ?_⟩
  by_cases e : u = t
  · rw [e, h3]
  · rw [h2 u e]

theorem lsays_event {s s' : LHub D T O R K A B E} {t : T} {e : LEvent T O K A E} (g : LAct O K A E) (h1 : s'.log = s.log ++ [e]) (h2 : ∀ u, u ≠ t → s'.th u = s.th u)
    (h3 : (s'.th t).phase.todo = g) (h4 : (s.th t).phase.todo.On t e g) : LSays s s' := by
  refine .inr ⟨t, e, g, h1, h4, fun u => ?_⟩
  by_cases e : u = t
  · rw [if_pos e, e, h3]
  · rw [if_neg e, h2 u e]

theorem lact_says (I : OImpl D O R) (Rd : K → R → Prog D A) (Lp : Loop D R B E) (s : LHub D T O R K A B E) (t : T) : LSays s (s.step I Rd Lp t) := by
  have ho : ∀ u, u ≠ t → (s.step I Rd Lp t).th u = s.th u := fun u hu => lstep_other Rd Lp s hu
  cases hp : (s.th t).phase with
  | idle g =>
    cases g with
    | done => exact .inl (by simp [LHub.step, hp])
    | lock c =>
      by_cases hh : s.writer = none ∧ s.readers = []
      · exact lsays_event c (by simp [LHub.step, hp, hh, LHub.note, LHub.put, LHub.to]; rfl) ho (by simp [LHub.step, hp, hh, LHub.note, LHub.put, LHub.to, LPhase.todo]) (by rw [hp]; exact ⟨rfl, rfl⟩)
      · exact .inl (by simp only [LHub.step, hp, hh, if_false]; simp)
    | unlock c => exact lsays_event c (by simp [LHub.step, hp, LHub.note, LHub.put, LHub.to]; rfl) ho (by simp [LHub.step, hp, LHub.note, LHub.put, LHub.to, LPhase.todo]) (by rw [hp]; exact ⟨rfl, rfl⟩)
    | rlock c =>
      by_cases hh : s.writer = none
      · exact lsays_event c (by simp [LHub.step, hp, hh, LHub.note, LHub.put, LHub.to]; rfl) ho (by simp [LHub.step, hp, hh, LHub.note, LHub.put, LHub.to, LPhase.todo]) (by rw [hp]; exact ⟨rfl, rfl⟩)
      · exact .inl (by simp only [LHub.step, hp, hh, if_false]; simp)
    | runlock c => exact lsays_event c (by simp [LHub.step, hp, LHub.note, LHub.put, LHub.to]; rfl) ho (by simp [LHub.step, hp, LHub.note, LHub.put, LHub.to, LPhase.todo]) (by rw [hp]; exact ⟨rfl, rfl⟩)
    | change cow o c => exact lsays_quiet (by simp [LHub.step, hp, LHub.put, LHub.to]) ho (by simp [LHub.step, hp, LHub.put, LHub.to, LPhase.todo])
    | read k c => exact lsays_quiet (by simp [LHub.step, hp, LHub.put, LHub.to]) ho (by simp [LHub.step, hp, LHub.put, LHub.to, LPhase.todo])
    | range c => exact lsays_event c (by simp [LHub.step, hp, LHub.note, LHub.put]; rfl) ho (by simp [LHub.step, hp, LHub.note, LHub.put, LPhase.todo]) (by rw [hp]; exact ⟨rfl, rfl⟩)
    | next ch c => exact .inl (by simp [LHub.step, hp])
  | changing cow o p c =>
    cases p with
    | ret rs => exact lsays_event c (by simp [LHub.step, hp, LHub.note, LHub.put, LHub.to]; rfl) ho (by simp [LHub.step, hp, LHub.note, LHub.put, LHub.to, LPhase.todo]) (by rw [hp]; exact ⟨rfl, rfl⟩)
    | stop e => exact .inl (by simp [LHub.step, hp, Prog.step])
    | read a k => exact lsays_quiet (by cases hm : s.heap.mem a <;> simp [LHub.step, hp, Prog.step, hm, LHub.put, LHub.to]) ho (by cases hm : s.heap.mem a <;> simp [LHub.step, hp, Prog.step, hm, LHub.put, LHub.to, LPhase.todo])
    | write a x k => exact lsays_quiet (by simp [LHub.step, hp, Prog.step, LHub.put, LHub.to]) ho (by simp [LHub.step, hp, Prog.step, LHub.put, LHub.to, LPhase.todo])
    | alloc x k => exact lsays_quiet (by simp [LHub.step, hp, Prog.step, LHub.put, LHub.to]) ho (by simp [LHub.step, hp, Prog.step, LHub.put, LHub.to, LPhase.todo])
  | reading k p c =>
    cases p with
    | ret a => exact lsays_event (c a) (by simp [LHub.step, hp, LHub.note, LHub.put, LHub.to]; rfl) ho (by simp [LHub.step, hp, LHub.note, LHub.put, LHub.to, LPhase.todo]) (by rw [hp]; exact ⟨_, rfl, rfl⟩)
    | stop e => exact .inl (by simp [LHub.step, hp, Prog.step])
    | read a k => exact lsays_quiet (by cases hm : s.heap.mem a <;> simp [LHub.step, hp, Prog.step, hm, LHub.put, LHub.to]) ho (by cases hm : s.heap.mem a <;> simp [LHub.step, hp, Prog.step, hm, LHub.put, LHub.to, LPhase.todo])
    | write a x k => exact lsays_quiet (by simp [LHub.step, hp, Prog.step, LHub.put, LHub.to]) ho (by simp [LHub.step, hp, Prog.step, LHub.put, LHub.to, LPhase.todo])
    | alloc x k => exact lsays_quiet (by simp [LHub.step, hp, Prog.step, LHub.put, LHub.to]) ho (by simp [LHub.step, hp, Prog.step, LHub.put, LHub.to, LPhase.todo])
  | taking ch p c =>
    cases p with
    | ret a => exact lsays_event (c (some a)) (by simp [LHub.step, hp, LHub.note, LHub.put, LHub.to]; rfl) ho (by simp [LHub.step, hp, LHub.note, LHub.put, LHub.to, LPhase.todo]) (by rw [hp]; exact ⟨_, rfl, rfl⟩)
    | stop e => exact .inl (by simp [LHub.step, hp, Prog.step])
    | read a k => exact lsays_quiet (by cases hm : s.heap.mem a <;> simp [LHub.step, hp, Prog.step, hm, LHub.put, LHub.to]) ho (by cases hm : s.heap.mem a <;> simp [LHub.step, hp, Prog.step, hm, LHub.put, LHub.to, LPhase.todo])
    | write a x k => exact lsays_quiet (by simp [LHub.step, hp, Prog.step, LHub.put, LHub.to]) ho (by simp [LHub.step, hp, Prog.step, LHub.put, LHub.to, LPhase.todo])
    | alloc x k => exact lsays_quiet (by simp [LHub.step, hp, Prog.step, LHub.put, LHub.to]) ho (by simp [LHub.step, hp, Prog.step, LHub.put, LHub.to, LPhase.todo])

theorem LStep.says {I : OImpl D O R} {Rd : K → R → Prog D A} {Lp : Loop D R B E} {s s' : LHub D T O R K A B E} (st : LStep I Rd Lp s s') : LSays s s' := by
  cases st with
  | act t => exact lact_says I Rd Lp s t
  | @walk t ch p p' h1 h2 => exact lsays_quiet (t := t) rfl (fun u hu => LHub.put_other s _ hu) (by rw [LHub.put_self])
  | @recv t ch c p p' b e h1 h2 => exact lsays_quiet (t := t) rfl (fun u hu => LHub.put_other s _ hu) (by rw [LHub.put_self, e]; rfl)
  | @closed t ch c ks e h1 =>
    exact lsays_event (t := t) (c none) rfl (fun u hu => LHub.put_other s _ hu) (by simp [LHub.note, LHub.to, LHub.put, LPhase.todo]) (by rw [e]; exact ⟨none, rfl, rfl⟩)

theorem LSays.follows {act : T → LAct O K A E} {s s' : LHub D T O R K A B E} (h : LSays s s') (hs : LFollows act s.log fun t => (s.th t).phase.todo) :
    LFollows act s'.log fun t => (s'.th t).phase.todo := by
  rcases h with ⟨h1, h2⟩ | ⟨t, e, g, h1, h2, h3⟩
  · rw [h1, show (fun u => (s'.th u).phase.todo) = _ from funext h2]; exact hs
  · rw [h1, show (fun u => (s'.th u).phase.todo) = _ from funext h3]; exact hs.snoc h2

theorem lruns_follows {I : OImpl D O R} {Rd : K → R → Prog D A} {Lp : Loop D R B E} {act : T → LAct O K A E} {s s' : LHub D T O R K A B E} {k : Nat} (hr : Spec.Runs (LStep I Rd Lp) k s s')
    (hs : LFollows act s.log fun t => (s.th t).phase.todo) : LFollows act s'.log fun t => (s'.th t).phase.todo := by
  induction hr with
  | refl => exact hs
  | step _ st ih => exact st.says.follows (ih hs)

/-! ## Less and less to do -/

/-- What is left of a goroutine after one step. -/
inductive LPhase.Less : LPhase D O R K A E → LPhase D O R K A E → Prop where
  | lock (c) : Less (.idle c) (.idle (.lock c))
  | unlock (c) : Less (.idle c) (.idle (.unlock c))
  | rlock (c) : Less (.idle c) (.idle (.rlock c))
  | runlock (c) : Less (.idle c) (.idle (.runlock c))
  | change (cow o p c) : Less (.changing cow o p c) (.idle (.change cow o c))
  | read (k c p) : Less (.reading k p c) (.idle (.read k c))
  | range (c) : Less (.idle c) (.idle (.range c))
  | recv (ch p c) : Less (.taking ch p c) (.idle (.next ch c))
  | closed (ch c) : Less (.idle (c none)) (.idle (.next ch c))
  | changed (cow o r c) : Less (.idle c) (.changing cow o (.ret r) c)
  | changing (cow o p q c) : Prog.Less q p → Less (.changing cow o q c) (.changing cow o p c)
  | answer (k a c) : Less (.idle (c a)) (.reading k (.ret a) c)
  | reading (k p q c) : Prog.Less q p → Less (.reading k q c) (.reading k p c)
  | got (ch e c) : Less (.idle (c (some e))) (.taking ch (.ret e) c)
  | taking (ch p q c) : Prog.Less q p → Less (.taking ch q c) (.taking ch p c)

omit [DecidableEq T] in
theorem LPhase.acc_changing {cow : Bool} {o : O} {c : LAct O K A E} (h : Acc (LPhase.Less (D := D) (R := R)) (.idle c)) (p : Prog D R) : Acc LPhase.Less (.changing cow o p c) := by
  induction p with
  | ret rs => exact ⟨_, fun y hy => by cases hy with | changed => exact h | changing _ _ _ _ _ hl => cases hl⟩
  | stop e => exact ⟨_, fun y hy => by cases hy with | changing _ _ _ _ _ hl => cases hl⟩
  | read a k ih =>
    have hs : ∀ e, Acc LPhase.Less (.changing cow o (.stop e : Prog D R) c) := fun e => ⟨_, fun y hy => by cases hy with | changing _ _ _ _ _ hl => cases hl⟩
    exact ⟨_, fun y hy => by cases hy with | changing _ _ _ _ _ hl => cases hl with | read => exact ih _ | miss => exact hs _⟩
  | write a c k ih => exact ⟨_, fun y hy => by cases hy with | changing _ _ _ _ _ hl => cases hl; exact ih⟩
  | alloc c k ih => exact ⟨_, fun y hy => by cases hy with | changing _ _ _ _ _ hl => cases hl; exact ih _⟩

omit [DecidableEq T] in
theorem LPhase.acc_reading {k : K} {c : A → LAct O K A E} (h : ∀ x, Acc (LPhase.Less (D := D) (R := R)) (.idle (c x))) (p : Prog D A) :
    Acc LPhase.Less (.reading k p c : LPhase D O R K A E) := by
  induction p with
  | ret rs => exact ⟨_, fun y hy => by cases hy with | answer => exact h _ | reading _ _ _ _ hl => cases hl⟩
  | stop e => exact ⟨_, fun y hy => by cases hy with | reading _ _ _ _ hl => cases hl⟩
  | read a k' ih =>
    have hs : ∀ e, Acc LPhase.Less (.reading k (.stop e) c : LPhase D O R K A E) := fun e => ⟨_, fun y hy => by cases hy with | reading _ _ _ _ hl => cases hl⟩
    exact ⟨_, fun y hy => by cases hy with | reading _ _ _ _ hl => cases hl with | read => exact ih _ | miss => exact hs _⟩
  | write a c k ih => exact ⟨_, fun y hy => by cases hy with | reading _ _ _ _ hl => cases hl; exact ih⟩
  | alloc c k ih => exact ⟨_, fun y hy => by cases hy with | reading _ _ _ _ hl => cases hl; exact ih _⟩

omit [DecidableEq T] in
theorem LPhase.acc_taking {ch : Nat} {c : Option E → LAct O K A E} (h : ∀ x, Acc (LPhase.Less (D := D) (R := R)) (.idle (c x))) (p : Prog D E) :
    Acc LPhase.Less (.taking ch p c : LPhase D O R K A E) := by
  induction p with
  | ret rs => exact ⟨_, fun y hy => by cases hy with | got => exact h _ | taking _ _ _ _ hl => cases hl⟩
  | stop e => exact ⟨_, fun y hy => by cases hy with | taking _ _ _ _ hl => cases hl⟩
  | read a k' ih =>
    have hs : ∀ e, Acc LPhase.Less (.taking ch (.stop e) c : LPhase D O R K A E) := fun e => ⟨_, fun y hy => by cases hy with | taking _ _ _ _ hl => cases hl⟩
    exact ⟨_, fun y hy => by cases hy with | taking _ _ _ _ hl => cases hl with | read => exact ih _ | miss => exact hs _⟩
  | write a c k ih => exact ⟨_, fun y hy => by cases hy with | taking _ _ _ _ hl => cases hl; exact ih⟩
  | alloc c k ih => exact ⟨_, fun y hy => by cases hy with | taking _ _ _ _ hl => cases hl; exact ih _⟩

omit [DecidableEq T] in
theorem LPhase.acc_idle (g : LAct O K A E) : Acc (LPhase.Less (D := D) (R := R)) (.idle g) := by
  induction g with
  | done => exact ⟨_, fun y hy => by cases hy⟩
  | lock c ih => exact ⟨_, fun y hy => by cases hy; exact ih⟩
  | unlock c ih => exact ⟨_, fun y hy => by cases hy; exact ih⟩
  | rlock c ih => exact ⟨_, fun y hy => by cases hy; exact ih⟩
  | runlock c ih => exact ⟨_, fun y hy => by cases hy; exact ih⟩
  | change cow o c ih => exact ⟨_, fun y hy => by cases hy; exact acc_changing ih _⟩
  | read k c ih => exact ⟨_, fun y hy => by cases hy; exact acc_reading ih _⟩
  | range c ih => exact ⟨_, fun y hy => by cases hy; exact ih⟩
  | next ch c ih => exact ⟨_, fun y hy => by cases hy with | recv => exact acc_taking ih _ | closed => exact ih _⟩

omit [DecidableEq T] in
theorem LPhase.less_wf : WellFounded (LPhase.Less (D := D) (O := O) (R := R) (K := K) (A := A) (E := E)) := ⟨fun x => by
  cases x with
  | idle g => exact acc_idle g
  | changing cow o p c => exact acc_changing (acc_idle c) p
  | reading k p c => exact acc_reading (fun x => acc_idle _) p
  | taking ch p c => exact acc_taking (fun x => acc_idle _) p⟩

/-- A step of a goroutine makes less of what it has before it, unless it has ended, waits or has failed. -/
theorem LHub.step_self (I : OImpl D O R) (Rd : K → R → Prog D A) (Lp : Loop D R B E) (s : LHub D T O R K A B E) (t : T) :
    LPhase.Less ((s.step I Rd Lp t).th t).phase (s.th t).phase ∨ s.step I Rd Lp t = s ∧ (s.ready t → s.failed t ∨ ∃ ch c, (s.th t).phase = .idle (.next ch c)) := by
  cases hp : (s.th t).phase with
  | idle g =>
    cases g with
    | done => exact .inr (by simp [LHub.step, hp, LHub.ready])
    | lock c =>
      by_cases hh : s.writer = none ∧ s.readers = []
      · exact .inl (by simp only [LHub.step, hp, hh, LHub.put, LHub.to, LHub.note, if_true, and_self]; constructor)
      · refine .inr ⟨by simp only [LHub.step, hp, hh, if_false], fun h => ?_⟩
        simp only [LHub.ready, hp] at h
        exact absurd h hh
    | unlock c => exact .inl (by simp only [LHub.step, hp, LHub.put, LHub.to, LHub.note, if_true]; constructor)
    | rlock c =>
      by_cases hh : s.writer = none
      · exact .inl (by simp only [LHub.step, hp, hh, LHub.put, LHub.to, LHub.note, if_true]; constructor)
      · refine .inr ⟨by simp only [LHub.step, hp, hh, if_false], fun h => ?_⟩
        simp only [LHub.ready, hp] at h
        exact absurd h hh
    | runlock c => exact .inl (by simp only [LHub.step, hp, LHub.put, LHub.to, LHub.note, if_true]; constructor)
    | change cow o c => exact .inl (by simp only [LHub.step, hp, LHub.put, LHub.to, if_true]; constructor)
    | read k c => exact .inl (by simp only [LHub.step, hp, LHub.put, LHub.to, if_true]; constructor)
    | range c => exact .inl (by simp only [LHub.step, hp, LHub.put, LHub.note, if_true]; constructor)
    | next ch c => exact .inr ⟨by simp [LHub.step, hp], fun _ => .inr ⟨ch, c, rfl⟩⟩
  | changing cow o p c =>
    cases hs : p.step s.heap with
    | none =>
      cases p with
      | ret rs => exact .inl (by simp only [LHub.step, hp, LHub.put, LHub.to, LHub.note, if_true]; constructor)
      | stop e => exact .inr (by simp [LHub.step, hp, Prog.step, LHub.failed])
      | read a k => simp only [Prog.step] at hs; split at hs <;> cases hs
      | write a c k => cases hs
      | alloc c k => cases hs
    | some qh =>
      cases p with
      | ret rs => cases hs
      | stop e => cases hs
      | _ => exact .inl (by simp only [LHub.step, hp, hs, LHub.put, LHub.to, if_true]; exact .changing _ _ _ _ _ (Prog.step_less hs))
  | reading k p c =>
    cases hs : p.step s.heap with
    | none =>
      cases p with
      | ret rs => exact .inl (by simp only [LHub.step, hp, LHub.put, LHub.to, LHub.note, if_true]; constructor)
      | stop e => exact .inr (by simp [LHub.step, hp, Prog.step, LHub.failed])
      | read a k => simp only [Prog.step] at hs; split at hs <;> cases hs
      | write a c k => cases hs
      | alloc c k => cases hs
    | some qh =>
      cases p with
      | ret rs => cases hs
      | stop e => cases hs
      | _ => exact .inl (by simp only [LHub.step, hp, hs, LHub.put, LHub.to, if_true]; exact .reading _ _ _ _ (Prog.step_less hs))
  | taking ch p c =>
    cases hs : p.step s.heap with
    | none =>
      cases p with
      | ret rs => exact .inl (by simp only [LHub.step, hp, LHub.put, LHub.to, LHub.note, if_true]; constructor)
      | stop e => exact .inr (by simp [LHub.step, hp, Prog.step, LHub.failed])
      | read a k => simp only [Prog.step] at hs; split at hs <;> cases hs
      | write a c k => cases hs
      | alloc c k => cases hs
    | some qh =>
      cases p with
      | ret rs => cases hs
      | stop e => cases hs
      | _ => exact .inl (by simp only [LHub.step, hp, hs, LHub.put, LHub.to, if_true]; exact .taking _ _ _ _ (Prog.step_less hs))

/-- A step that changes something makes less of what a goroutine has before it, or is one behind a channel. -/
theorem LMove.less {I : OImpl D O R} {Rd : K → R → Prog D A} {Lp : Loop D R B E} {s s' : LHub D T O R K A B E} (st : LMove I Rd Lp s s') :
    (∃ t, LPhase.Less (s'.th t).phase (s.th t).phase ∧ ∀ u, u ≠ t → s'.th u = s.th u) ∨
    ∃ t ch p p', (s.th t).chans[ch]? = some p ∧ PStep id s.heap p none p' ∧ s' = s.put t ⟨(s.th t).phase, (s.th t).chans.set ch p'⟩ := by
  obtain ⟨st, hne⟩ := st
  cases st with
  | act t =>
    rcases s.step_self I Rd Lp t with h | h
    · exact .inl ⟨t, h, fun u hu => lstep_other Rd Lp s hu⟩
    · exact absurd h.1 hne
  | @walk t ch p p' h1 h2 => exact .inr ⟨t, ch, p, p', h1, h2, rfl⟩
  | @recv t ch c p p' b e h1 h2 => exact .inl ⟨t, by rw [LHub.put_self, e]; constructor, fun u hu => LHub.put_other s _ hu⟩
  | @closed t ch c ks e h1 => exact .inl ⟨t, by simp only [LHub.note, LHub.to, LHub.put, if_true, e]; constructor, fun u hu => LHub.put_other s _ hu⟩

/-- Finitely many goroutines have only finitely many steps before them, whatever the order. -/
theorem lmoves_end {I : OImpl D O R} {Rd : K → R → Prog D A} {Lp : Loop D R B E} {ts : List T} (hts : ∀ t, t ∈ ts) (σ : Nat → LHub D T O R K A B E)
    (hch : ∀ i t, ∀ p ∈ ((σ i).th t).chans, ∃ pin l n, Holds id pin (σ i).heap ∧ p.Good pin l n) (hm : ∀ i, LMove I Rd Lp (σ i) (σ (i + 1))) : False := by
  have hall : ∀ l : List T, ∃ m, ∀ u ∈ l, ∀ k, m ≤ k → ((σ k).th u).phase = ((σ m).th u).phase := by
    intro l
    induction l with
    | nil => exact ⟨0, by simp⟩
    | cons v l ih =>
      obtain ⟨m, hm'⟩ := ih
      obtain ⟨m', h1, h2⟩ := wf_settles LPhase.less_wf (fun i => ((σ i).th v).phase) (fun i => by
        rcases (hm i).less with ⟨t, h1, h2⟩ | ⟨t, ch, p, p', _, _, h3⟩
        · by_cases e : v = t
          · subst e; exact .inr h1
          · exact .inl (by rw [h2 v e])
        · refine .inl ?_
          show ((σ (i + 1)).th v).phase = _
          rw [h3]
          by_cases e : v = t
          · subst e; rw [LHub.put_self]
          · rw [LHub.put_other _ _ e]) m
      refine ⟨m', fun u hu k hk => ?_⟩
      rcases List.mem_cons.1 hu with rfl | hu
      · exact h2 k hk
      · rw [hm' u hu k (by omega), hm' u hu m' h1]
  obtain ⟨n, hn⟩ := hall ts
  have hw : ∀ i, n ≤ i → ∃ t ch p p', ((σ i).th t).chans[ch]? = some p ∧ PStep id (σ i).heap p none p' ∧
      σ (i + 1) = (σ i).put t ⟨((σ i).th t).phase, ((σ i).th t).chans.set ch p'⟩ := by
    intro i hi
    rcases (hm i).less with ⟨t, h1, _⟩ | h
    · rw [hn t (hts t) (i + 1) (by omega), hn t (hts t) i hi] at h1
      exact absurd h1 (wf_irrefl LPhase.less_wf _)
    · exact h
  have key : ∀ N i, n ≤ i → ¬ StepsAll (σ i).heap (fun t => ((σ i).th t).chans) ts N := by
    intro N
    induction N using Nat.strongRecOn with
    | _ N ih =>
      intro i hi hs
      obtain ⟨t, ch, p, p', h1, h2, h3⟩ := hw i hi
      obtain ⟨N', _, a2, a3⟩ := StepsAll.walk (f := fun t => ((σ i).th t).chans) (f' := fun u => ((σ (i + 1)).th u).chans) (t := t) h1 h2 (fun u => by
        simp only [h3]
        by_cases e : u = t
        · subst e; rw [LHub.put_self, if_pos rfl]
        · rw [LHub.put_other _ _ e, if_neg e]) hs
      refine ih N' (a2 (hts t)) (i + 1) (by omega) ?_
      have : (σ (i + 1)).heap = (σ i).heap := by rw [h3]; rfl
      rw [this]; exact a3
  obtain ⟨N, hN⟩ := stepsAll_of (hch n) ts
  exact key N n (Nat.le_refl _) hN

/-! ## Runs -/

section Runs
variable {I : OImpl D O R} {Lp : Loop D R B E} {J : List O → Prop} {P : K → List O → A → Prop} {L : List O → List E → Prop} {h0 : Heap D} {Z : Addr → Prop} {m n : Nat}
  {s s' : LHub D T O R K A B E} {b : LBoard T O E} {qs : T → List (Option (List E))}

theorem locked_runs (hI : I.Lawful n) (Rd : K → R → Prog D A)
    (hR : ∀ k h r l F, l.length ≤ n → I.Obj h r l F → wp (fun _ => False) (Rd k r) (fun x h' => h' = h ∧ P k l x) h) (hL : Lp.Lawful I L n)
    (hZ : ∀ a, h0.next ≤ a → Z a) (hi : LockInv I Lp J P L h0 Z m s b qs) {k : Nat} (hr : Spec.Runs (LStep I Rd Lp) k s s') (hm : m + k ≤ n) :
    Goes I Lp J P L h0 Z (m + k) s s' b := by
  induction hr with
  | refl => exact ⟨qs, [], by simp, trivial, hi⟩
  | @step x y z k hr st ih =>
    obtain ⟨qs', es, h1, h2, h3⟩ := ih hi (by omega)
    obtain ⟨qs2, es2, i1, i2, i3⟩ := locked_step (m' := m + (k + 1)) hI Rd hR hL (by omega) (by omega) hZ h3 st (fun _ _ _ _ _ _ => by omega) (fun _ _ _ _ _ _ _ => by omega)
    refine ⟨qs2, es ++ es2, by rw [i1, h1, List.append_assoc], ?_, ?_⟩
    · rw [LBoard.fitsAll_append]; exact ⟨h2, i2⟩
    · rw [LBoard.replay_append]; exact i3

omit [DecidableEq T] in
/-- The goroutine makes at most so many changes. -/
def LAct.AtMost : LAct O K A E → Nat → Prop
  | .done, _ => True
  | .lock c, n => c.AtMost n
  | .unlock c, n => c.AtMost n
  | .rlock c, n => c.AtMost n
  | .runlock c, n => c.AtMost n
  | .change _ _ c, n => ∃ m, n = m + 1 ∧ c.AtMost m
  | .read _ c, n => ∀ x, (c x).AtMost n
  | .range c, n => c.AtMost n
  | .next _ c, n => ∀ x, (c x).AtMost n

omit [DecidableEq T] in
theorem LPhase.Less.atMost {x y : LPhase D O R K A E} (h : LPhase.Less x y) {n : Nat} (hy : y.todo.AtMost n) :
    (∀ cow o r c, y ≠ .changing cow o (.ret r) c) ∧ x.todo.AtMost n ∨ ∃ m, n = m + 1 ∧ x.todo.AtMost m := by
  cases h with
  | changed cow o r c =>
    obtain ⟨m, rfl, h⟩ := hy
    exact .inr ⟨m, rfl, h⟩
  | change cow o p c => exact .inl ⟨by simp, hy⟩
  | lock c => exact .inl ⟨by simp, hy⟩
  | unlock c => exact .inl ⟨by simp, hy⟩
  | rlock c => exact .inl ⟨by simp, hy⟩
  | runlock c => exact .inl ⟨by simp, hy⟩
  | read k c p => exact .inl ⟨by simp, hy⟩
  | range c => exact .inl ⟨by simp, hy⟩
  | recv ch p c => exact .inl ⟨by simp, hy⟩
  | closed ch c => exact .inl ⟨by simp, hy none⟩
  | changing cow o p q c hl =>
    refine .inl ⟨fun cow' o' r c' e => ?_, hy⟩
    cases e
    cases hl
  | answer k a c => exact .inl ⟨by simp, hy a⟩
  | reading k p q c hl => exact .inl ⟨by simp, hy⟩
  | got ch e c => exact .inl ⟨by simp, hy (some e)⟩
  | taking ch p q c hl => exact .inl ⟨by simp, hy⟩

/-- As `locked_runs`, for goroutines that make at most so many changes, in runs of any length. -/
theorem locked_runs_atMost (hI : I.Lawful n) (Rd : K → R → Prog D A)
    (hR : ∀ k h r l F, l.length ≤ n → I.Obj h r l F → wp (fun _ => False) (Rd k r) (fun x h' => h' = h ∧ P k l x) h) (hL : Lp.Lawful I L n)
    (hZ : ∀ a, h0.next ≤ a → Z a) {ts : List T} (hts : ∀ t, t ∈ ts) (hi : LockInv I Lp J P L h0 Z m s b qs) {j : Nat} (hr : Spec.Runs (LStep I Rd Lp) j s s')
    {k : T → Nat} (hk : ∀ t, (s.th t).phase.todo.AtMost (k t)) (hm : m + (ts.map k).sum ≤ n) :
    ∃ m' k', Goes I Lp J P L h0 Z m' s s' b ∧ (∀ t, (s'.th t).phase.todo.AtMost (k' t)) ∧ m' + (ts.map k').sum ≤ n := by
  induction hr with
  | refl => exact ⟨m, k, ⟨qs, [], by simp, trivial, hi⟩, hk, hm⟩
  | @step x y z j hr st ih =>
    obtain ⟨m1, k1, ⟨qs', es, h1, h2, h3⟩, h4, h5⟩ := ih hi hk
    have hb : ∀ t cow o c, (y.th t).phase = .idle (.change cow o c) → m1 < n := by
      intro t cow o c e
      have h6 := h4 t
      rw [e] at h6
      obtain ⟨j, h6, _⟩ := h6
      have := (sum_less h6 ts).2 (hts t)
      omega
    have key : ∃ m2 k2, m1 ≤ m2 ∧ (∀ t cow o r c, (y.th t).phase = .changing cow o (.ret r) c → z = y.step I Rd Lp t → m1 < m2) ∧ (∀ t, (z.th t).phase.todo.AtMost (k2 t)) ∧
        m2 + (ts.map k2).sum ≤ n := by
      by_cases hz : z = y
      · refine ⟨m1, k1, Nat.le_refl _, fun t cow o r c e hs => ?_, by rw [hz]; exact h4, h5⟩
        exfalso
        have := congrArg (fun s => (s.th t).phase) (hz.symm.trans hs)
        simp only [LHub.step, e, LHub.note, LHub.to, LHub.put, if_true] at this
        cases this
      · rcases (show LMove I Rd Lp y z from ⟨st, hz⟩).less with ⟨t, l1, l2⟩ | ⟨t, ch, p, p', w1, w2, w3⟩
        · have huniq : ∀ u cow o r c, (y.th u).phase = .changing cow o (.ret r) c → z = y.step I Rd Lp u → u = t := by
            intro u cow o r c e hs
            refine Classical.byContradiction fun hne => ?_
            have := congrArg LGor.phase (l2 u hne)
            rw [hs, e] at this
            simp only [LHub.step, e, LHub.note, LHub.to, LHub.put, if_true] at this
            cases this
          rcases l1.atMost (h4 t) with ⟨a1, a2⟩ | ⟨j, a1, a2⟩
          · refine ⟨m1, k1, Nat.le_refl _, fun u cow o r c e hs => ?_, fun u => ?_, h5⟩
            · have := huniq u cow o r c e hs
              subst this
              exact absurd e (a1 cow o r c)
            · by_cases e : u = t
              · subst e; exact a2
              · rw [l2 u e]; exact h4 u
          · have hs := (sum_less a1 ts).2 (hts t)
            refine ⟨m1 + 1, fun u => if u = t then j else k1 u, by omega, fun _ _ _ _ _ _ _ => by omega, fun u => ?_, by omega⟩
            by_cases e : u = t
            · subst e; simpa using a2
            · rw [l2 u e]; simpa [e] using h4 u
        · refine ⟨m1, k1, Nat.le_refl _, fun u cow o r c e hs => ?_, fun u => ?_, h5⟩
          · exfalso
            have := congrArg (fun s => (s.th u).phase) (w3.symm.trans hs)
            simp only [LHub.step, e, LHub.note, LHub.to, LHub.put, if_true] at this
            by_cases e' : u = t
            · subst e'; simp [e] at this
            · simp [e', e] at this
          · rw [w3]
            by_cases e : u = t
            · subst e; rw [LHub.put_self]; exact h4 u
            · rw [LHub.put_other _ _ e]; exact h4 u
    obtain ⟨m2, k2, c1, c2, c3, c4⟩ := key
    obtain ⟨qs2, es2, i1, i2, i3⟩ := locked_step (m' := m2) hI Rd hR hL (by omega) c1 hZ h3 st (fun t cow o c e _ => hb t cow o c e) c2
    refine ⟨m2, k2, ⟨qs2, es ++ es2, by rw [i1, h1, List.append_assoc], ?_, ?_⟩, c3, c4⟩
    · rw [LBoard.fitsAll_append]; exact ⟨h2, i2⟩
    · rw [LBoard.replay_append]; exact i3

/-! ## The promise -/

omit [DecidableEq T] in
theorem goods_none {pin : Pin (Cell D)} : ∀ {ks : List (Proc (Cell D) B)}, allOver ks → goods pin ks (ks.map fun _ => none) 0
  | [], _ => by rw [goods]; exact ⟨rfl, rfl⟩
  | p :: ks, h => by
    rw [allOver] at h
    rw [goods]
    exact ⟨none, _, 0, 0, rfl, rfl, goods_none h.2, .inl ⟨rfl, h.1, rfl⟩⟩

omit [DecidableEq T] in
/-- What is over reads nothing. -/
theorem over_good {pin : Pin (Cell D)} {p : Proc (Cell D) B} (h : p.Over) : p.Good pin [] 0 := by
  obtain ⟨ks, rfl⟩ := over_done h
  rw [Proc.Over] at h
  rw [Proc.Good]
  exact ⟨_, 0, 0, goods_none h.2, by simp [Gen.out], rfl⟩

omit [DecidableEq T] in
theorem LThInv.chan {base : Nat} {md : Mode} {l : List O} {h : Heap D} {g : LGor D O R K A B E} {chs : List (List O × List E)} {q : List (Option (List E))}
    (hi : LThInv I Lp J P L Z base md l h g chs q) {p : Proc (Cell D) B} (hp : p ∈ g.chans) :
    (∃ pin l n, Holds id pin h ∧ p.Good pin l n ∧ ∀ a, pin a ≠ none → a < base) ∧ ((∀ x ∈ q, x = none) → p.Over) := by
  obtain ⟨ch, hlt, hp⟩ := List.getElem_of_mem hp
  have hp : g.chans[ch]? = some p := by rw [List.getElem?_eq_getElem hlt, hp]
  have hc := hi.chans
  have hb : (g.phase.behind q).length = q.length := by
    cases g.phase <;> simp [LPhase.behind]
  have hx := hc.2 ch p _ hp (List.getElem?_eq_getElem (by rw [hb, ← hc.1]; exact hlt))
  constructor
  · generalize (g.phase.behind q)[ch]'(by rw [hb, ← hc.1]; exact hlt) = x at hx
    cases x with
    | none => exact ⟨fun _ => none, [], 0, fun a x hx => (by simp at hx), over_good hx, fun a ha => absurd rfl ha⟩
    | some es => exact ChanInv.holds hx
  · intro hq
    have : (g.phase.behind q)[ch]'(by rw [hb, ← hc.1]; exact hlt) = none := by
      refine hq _ ?_
      simp only [LPhase.behind_none hi.phase hq]
      exact List.getElem_mem _
    rw [this] at hx
    exact hx

theorem LockInv.safe (hi : LockInv I Lp J P L h0 Z m s b qs) (t : T) : ¬ s.failed t ∧ ∀ p ∈ (s.th t).chans, ¬ p.Bad s.heap := by
  obtain ⟨base, ht⟩ := hi.th t
  constructor
  · have hg := ht.phase
    unfold LHub.failed
    split
    · exact id
    · rename_i hp
      rw [hp] at hg
      rintro ⟨e, rfl⟩
      exact hg.2.2.1
    · rename_i hp
      rw [hp] at hg
      rintro ⟨e, rfl⟩
      exact hg.2.2
    · rename_i hp
      rw [hp] at hg
      rintro ⟨e, rfl⟩
      obtain ⟨_, _, _, hs, _, _, _, _, h⟩ := hg
      exact h
  · intro p hp hb
    obtain ⟨⟨pin, l, n, k1, k2, _⟩, _⟩ := ht.chan hp
    exact not_bad k1 hb k2

theorem LockInv.norace (hi : LockInv I Lp J P L h0 Z m s b qs) (t u : T) (a : Nat) (hw : s.writes t = some a) :
    (t ≠ u → s.touches u ≠ some a) ∧ ∀ p ∈ (s.th u).chans, ¬ p.AtRead a := by
  obtain ⟨base, ht⟩ := hi.th t
  obtain ⟨base', hu⟩ := hi.th u
  have hg := ht.phase
  unfold LHub.writes at hw
  split at hw
  · cases hw
  · rename_i cow o p c hp
    rw [hp] at hg
    obtain ⟨g1, g2, g3, g4⟩ := hg
    have al : t ≠ u → modeOf s.writer s.readers u = .free := fun hne => hi.alone (modeOf_sole.1 g1) fun h => hne h.symm
    constructor
    · intro hne htou
      have hmu := al hne
      have hgu := hu.phase
      rw [hmu] at hgu
      unfold LHub.touches at htou
      split at htou
      · cases htou
      · rename_i hpu
        rw [hpu] at hgu
        cases hgu.1
      · rename_i hpu
        rw [hpu] at hgu
        exact hgu.1 rfl
      · rename_i hpu
        rw [hpu] at hgu
        exact hgu.1 rfl
    · intro q hq hr
      by_cases hne : t = u
      · subst hne
        cases cow with
        | true =>
          obtain ⟨G, g4⟩ := g4
          obtain ⟨⟨pin, l, n, _, k2, k3⟩, _⟩ := ht.chan hq
          have h1 := k3 a (hr.pinned k2)
          cases p with
          | write b x k =>
            simp only [Prog.writes, Option.some.injEq] at hw
            subst hw
            have : base ≤ b := g4.1
            omega
          | ret x => cases hw
          | stop x => cases hw
          | read x k => cases hw
          | alloc x k => cases hw
        | false => exact hr.not_over ((ht.chan hq).2 g4)
      · exact hr.not_over ((hu.chan hq).2 (hu.free (al hne)))
  · rename_i hp
    rw [hp] at hg
    rcases read_next hg.2.2 with ⟨x, rfl, _⟩ | ⟨b, kk, c0, rfl, r1, r2⟩ <;> cases hw
  · rename_i hp
    rw [hp] at hg
    obtain ⟨_, _, _, hs, _, _, _, _, h⟩ := hg
    rcases read_next h with ⟨x, rfl, _⟩ | ⟨b, kk, c0, rfl, r1, r2⟩ <;> cases hw

/-- Who waits for something from a channel can go on. -/
theorem LockInv.ready_next (hi : LockInv I Lp J P L h0 Z m s b qs) {t : T} {ch : Nat} {c : Option E → LAct O K A E} (hp : (s.th t).phase = .idle (.next ch c)) :
    ∃ p, (s.th t).chans[ch]? = some p ∧ ((∃ ks, p = .mk .done ks) ∨ (∃ p', PStep id s.heap p none p') ∨ ∃ b p', PStep id s.heap p (some b) p') := by
  obtain ⟨base, ht⟩ := hi.th t
  have h := ht.phase
  rw [hp, LPhaseInv, LAct.Legal] at h
  have hlt : ch < (qs t).length := by
    have h := h.2
    cases hq : (qs t)[ch]? with
    | none => rw [hq] at h; exact h.elim
    | some x => exact (List.getElem?_eq_some_iff.1 hq).1
  have hlt : ch < (s.th t).chans.length := by rw [ht.chans.1]; exact hlt
  refine ⟨_, List.getElem?_eq_getElem hlt, ?_⟩
  obtain ⟨⟨pin, l, n, k1, k2, _⟩, _⟩ := ht.chan (List.getElem_mem hlt)
  exact Pipe.progress k1 _ k2

theorem LockInv.progress (hi : LockInv I Lp J P L h0 Z m s b qs) (t : T) : s.ended t ∨ s.ready t ∨ ∃ u, (s.writer = some u ∨ u ∈ s.readers) ∧ u ≠ t ∧ s.ready u := by
  have rd : ∀ u, modeOf s.writer s.readers u ≠ .free → s.ready u := by
    intro u hu
    obtain ⟨base, ht⟩ := hi.th u
    have hg := ht.phase
    unfold LHub.ready
    split
    · rename_i hp
      rw [hp] at hg
      exact absurd hg hu
    · rename_i hp
      rw [hp] at hg
      exact absurd hg.1 hu
    · rename_i hp
      rw [hp] at hg
      exact absurd hg.1 hu
    · rename_i hp
      exact hi.ready_next hp
    · trivial
  by_cases h1 : s.ended t
  · exact .inl h1
  · by_cases h2 : s.ready t
    · exact .inr (.inl h2)
    · have hfree : modeOf s.writer s.readers t = .free := by
        cases hmo : modeOf s.writer s.readers t with
        | free => rfl
        | shared => exact absurd (rd t (by rw [hmo]; simp)) h2
        | sole => exact absurd (rd t (by rw [hmo]; simp)) h2
      refine .inr (.inr ?_)
      have go : ∀ u, s.writer = some u ∨ u ∈ s.readers → ∃ u, (s.writer = some u ∨ u ∈ s.readers) ∧ u ≠ t ∧ s.ready u := by
        intro u hu
        have hmu : modeOf s.writer s.readers u ≠ .free := by
          rcases hu with h | h
          · rw [modeOf_sole.2 h]; simp
          · intro hx; exact modeOf_free hx h
        exact ⟨u, hu, by rintro rfl; exact hmu hfree, rd u hmu⟩
      cases hw : s.writer with
      | some u => rw [hw] at go; exact go u (.inl rfl)
      | none =>
        cases hr : s.readers with
        | cons u us => rw [hw, hr] at go; exact go u (.inr (by simp))
        | nil =>
          exfalso
          apply h2
          unfold LHub.ready
          split
          · rename_i hp; exact h1 hp
          · exact ⟨hw, hr⟩
          · exact hw
          · rename_i hp; exact hi.ready_next hp
          · trivial

theorem LockInv.ready_moves (Rd : K → R → Prog D A) (hi : LockInv I Lp J P L h0 Z m s b qs) {t : T} (h : s.ready t) : ∃ s', LMove I Rd Lp s s' := by
  rcases s.step_self I Rd Lp t with h1 | h1
  · refine ⟨_, .act t, fun e => ?_⟩
    rw [e] at h1
    exact wf_irrefl LPhase.less_wf _ h1
  · rcases h1.2 h with h2 | ⟨ch, c, h2⟩
    · exact absurd h2 (hi.safe t).1
    · obtain ⟨p, hp, h3 | ⟨p', h3⟩ | ⟨b', p', h3⟩⟩ := hi.ready_next h2
      · obtain ⟨ks, rfl⟩ := h3
        refine ⟨_, .closed h2 hp, fun e => ?_⟩
        have := congrArg (fun s => s.log.length) e
        simp [LHub.note, LHub.to, LHub.put] at this
      · refine ⟨_, .walk hp h3, fun e => ?_⟩
        obtain ⟨base, ht⟩ := hi.th t
        obtain ⟨⟨pin, l, n, k1, k2, _⟩, _⟩ := ht.chan (List.mem_of_getElem? hp)
        have := congrArg (fun s => ((s.th t).chans)[ch]?) e
        simp only [LHub.put_self, hp] at this
        rw [List.getElem?_set_self (List.getElem?_eq_some_iff.1 hp).1] at this
        exact pstep_ne k1 k2 h3 (by simpa using this)
      · refine ⟨_, .recv h2 hp h3, fun e => ?_⟩
        have := congrArg (fun s => (s.th t).phase) e
        simp only [LHub.put_self, h2] at this
        cases this

theorem LockInv.promise (Rd : K → R → Prog D A) {Ob : Heap D → R → List O → Prop} (hO : ∀ h r l F, l.length ≤ n → I.Obj h r l F → Ob h r l) (hm : m ≤ n)
    {l : List O} {act : T → LAct O K A E} (hf : LFollows act s.log fun t => (s.th t).phase.todo) (hfit : (LBoard.start l).FitsAll P L s.log)
    (hi : LockInv I Lp J P L h0 Z m s ((LBoard.start l).replay s.log) qs) : LockPromise I Rd Lp P L Ob l act s := by
  refine ⟨hf, hfit, lfits_sections hfit, hi.safe, hi.norace, hi.writer, hi.readers, fun hq => ?_, hi.progress, ?_⟩
  · obtain ⟨F, f1, _⟩ := hi.obj hq
    exact hO _ _ _ _ (by have := hi.len; omega) f1
  · by_cases h : ∀ t, s.ended t
    · exact .inl h
    · refine .inr ?_
      have ⟨t, ht⟩ := Classical.not_forall.1 h
      rcases hi.progress t with h | h | ⟨u, _, _, h⟩
      · exact absurd h ht
      · exact hi.ready_moves Rd h
      · exact hi.ready_moves Rd h

theorem locked_start {h : Heap D} (hk : h.Ok) {r : R} {l : List O} {F : Addr → Prop} (ho : I.Obj h r l F) (hl : l.length ≤ m) (hJ : J l) (act : T → LAct O K A E)
    (ha : ∀ t, (act t).Legal J I.cowOk I.inpOk P L .free [] []) :
    LockInv I Lp J P L h (fun a => F a ∨ h.next ≤ a) m (LHub.start h r act) (LBoard.start l) (fun _ => []) := by
  refine ⟨hk, Nat.le_refl _, fun _ _ _ => rfl, rfl, rfl, .inl rfl, List.nodup_nil, hl, fun _ => hJ, fun _ => ⟨F, ho, fun x hx => .inl hx⟩, fun t => ⟨0, ?_⟩⟩
  have : modeOf (LHub.start h r act : LHub D T O R K A B E).writer (LHub.start h r act : LHub D T O R K A B E).readers t = .free := by simp [modeOf, LHub.start]
  rw [this]
  exact ⟨Nat.zero_le _, LAct.Legal.any (ha t) _, fun _ q hq => by simp at hq, ⟨rfl, fun ch p q h1 => by simp [LHub.start] at h1⟩, ⟨rfl, fun ch p q h1 => by simp [LBoard.start] at h1⟩⟩

end Runs

/-- What goroutines sharing a tree can rely on: `LockPromise` in every state they can get to, the other trees `others` of the client stay as they are, and the goroutines have only
finitely many steps to make, whatever the order. -/
structure LockEnds (I : OImpl D O R) (Rd : K → R → Prog D A) (Lp : Loop D R B E) (P : K → List O → A → Prop) (L : List O → List E → Prop) (Ob : Heap D → R → List O → Prop)
    (l : List O) (others : R → List O → Prop) (act : T → LAct O K A E) (s : LHub D T O R K A B E) : Prop where
  promise : ∀ k s', Spec.Runs (LStep I Rd Lp) k s s' → LockPromise I Rd Lp P L Ob l act s'
  others : ∀ k s' r l', Spec.Runs (LStep I Rd Lp) k s s' → others r l' → Ob s'.heap r l'
  ends : ∀ ts : List T, (∀ t, t ∈ ts) → ∀ σ : Nat → LHub D T O R K A B E, σ 0 = s → ¬ ∀ i, LMove I Rd Lp (σ i) (σ (i + 1))

/-- In every run of at most `N` steps. -/
structure LockUpTo (N : Nat) (I : OImpl D O R) (Rd : K → R → Prog D A) (Lp : Loop D R B E) (P : K → List O → A → Prop) (L : List O → List E → Prop) (Ob : Heap D → R → List O → Prop)
    (l : List O) (others : R → List O → Prop) (act : T → LAct O K A E) (s : LHub D T O R K A B E) : Prop where
  promise : ∀ k s', k ≤ N → Spec.Runs (LStep I Rd Lp) k s s' → LockPromise I Rd Lp P L Ob l act s'
  others : ∀ k s' r l', k ≤ N → Spec.Runs (LStep I Rd Lp) k s s' → others r l' → Ob s'.heap r l'

theorem lseq_runs {I : OImpl D O R} {Rd : K → R → Prog D A} {Lp : Loop D R B E} {σ : Nat → LHub D T O R K A B E} (hm : ∀ i, LMove I Rd Lp (σ i) (σ (i + 1))) :
    ∀ i, Spec.Runs (LStep I Rd Lp) i (σ 0) (σ i)
  | 0 => .refl _
  | i + 1 => .step (lseq_runs hm i) (hm i).1

/-- The trees a client holds besides the `i`-th. -/
def OtherTrees (rs : List R) (vs : List (Nat × List O)) (i : Nat) (r : R) (l : List O) : Prop := ∃ (j : Nat) (k : Nat), j ≠ i ∧ rs[j]? = some r ∧ vs[j]? = some (k, l)

/-- The state at the start, and the other trees. -/
theorem share_start {I : OImpl D O R} {n : Nat} (hI : I.Lawful n) (ops : List (SOp O)) (hl : (Book.init : Book O).LegalAll2 I.cowOk I.inpOk ops) (hn : ops.length ≤ n)
    (Lp : Loop D R B E) (P : K → List O → A → Prop) (L : List O → List E → Prop) (J : List O → Prop) (act : T → LAct O K A E)
    (ha : ∀ t, (act t).Legal J I.cowOk I.inpOk P L .free [] []) :
    ∃ s, OStore.init.exec I ops = .ok s ∧ ∀ (i : Nat) r v, s.roots[i]? = some r → (Book.init.exec ops).vs[i]? = some v → J v.2 →
      (∀ j u, j ≠ i → (Book.init.exec ops).vs[j]? = some u → u.1 ≠ v.1) →
      ∃ Z : Addr → Prop, (∀ a, s.heap.next ≤ a → Z a) ∧ LockInv I Lp J P L s.heap Z ops.length (LHub.start s.heap r act) (LBoard.start v.2) (fun _ => []) ∧
      ∀ (h : Heap D) r' l', s.heap.next ≤ h.next → (∀ a, a < s.heap.next → ¬ Z a → h.mem a = s.heap.mem a) → OtherTrees s.roots (Book.init.exec ops).vs i r' l' →
        ∃ F, l'.length ≤ n ∧ I.Obj h r' l' F := by
  obtain ⟨s, e, i1⟩ := oexec_inv hI (oinv_init I) ops (by omega) hl
  refine ⟨s, e, fun i r v hr hv hJ hx => ?_⟩
  obtain ⟨Ts, _, hk, h1, h2, h3, h4⟩ := i1
  have find : ∀ (j : Nat) r' u, s.roots[j]? = some r' → (Book.init.exec ops).vs[j]? = some u →
      ∃ F, ((r', F), u) ∈ Ts ∧ I.Obj s.heap r' u.2 F ∧ u.2.length ≤ ops.length := by
    intro j r' u hr hu
    rw [h1, List.getElem?_map] at hr
    rw [h2, List.getElem?_map] at hu
    cases hT : Ts[j]? with
    | none => simp [hT] at hr
    | some x =>
      simp only [hT, Option.map_some, Option.some.injEq] at hr hu
      subst hr hu
      have hmem := List.mem_of_getElem? hT
      obtain ⟨a, _, c⟩ := h3 x hmem
      exact ⟨x.1.2, hmem, a, by omega⟩
  obtain ⟨F, f1, f2, f3⟩ := find i r v hr hv
  refine ⟨fun a => F a ∨ s.heap.next ≤ a, fun a h => .inr h, locked_start hk f2 f3 hJ act ha, ?_⟩
  rintro h r' l' hn' hkeep ⟨j, k, hj, hr', hu⟩
  obtain ⟨G, g1, g2, g3⟩ := find j r' _ hr' hu
  refine ⟨G, by simp only at g3; omega, hI.frame g2 hn' fun a ha => hkeep a (hI.lt g2 ha) ?_⟩
  rintro (hF | hF)
  · exact h4 _ g1 _ f1 (hx j _ hj hu) a ⟨ha, hF⟩
  · have := hI.lt g2 ha; omega

/-- Trees whose size does not matter. -/
theorem locked_sound {I : OImpl D O R} (hI : ∀ n, I.Lawful n) (ops : List (SOp O)) (hl : (Book.init : Book O).LegalAll2 I.cowOk I.inpOk ops)
    (Rd : K → R → Prog D A) (P : K → List O → A → Prop) (Ob : Heap D → R → List O → Prop) {Lp : Loop D R B E} {L : List O → List E → Prop}
    (hR : ∀ k h r l F, I.Obj h r l F → wp (fun _ => False) (Rd k r) (fun x h' => h' = h ∧ P k l x) h)
    (hO : ∀ h r l F, I.Obj h r l F → Ob h r l) (hL : ∀ n, Lp.Lawful I L n) (J : List O → Prop) (act : T → LAct O K A E)
    (ha : ∀ t, (act t).Legal J I.cowOk I.inpOk P L .free [] []) :
    ∃ s, OStore.init.exec I ops = .ok s ∧ ∀ (i : Nat) r v, s.roots[i]? = some r → (Book.init.exec ops).vs[i]? = some v → J v.2 →
      (∀ j u, j ≠ i → (Book.init.exec ops).vs[j]? = some u → u.1 ≠ v.1) →
      LockEnds I Rd Lp P L Ob v.2 (OtherTrees s.roots (Book.init.exec ops).vs i) act (LHub.start s.heap r act) := by
  obtain ⟨s, e, i1⟩ := share_start (hI ops.length) ops hl (Nat.le_refl _) Lp P L J act ha
  refine ⟨s, e, fun i r v hr hv hJ hx => ?_⟩
  obtain ⟨Z, z1, z2, z3⟩ := i1 i r v hr hv hJ hx
  have run : ∀ k s', Spec.Runs (LStep I Rd Lp) k (LHub.start s.heap r act) s' → ∃ qs, (LBoard.start v.2).FitsAll P L s'.log ∧
      LockInv I Lp J P L s.heap Z (ops.length + k) s' ((LBoard.start v.2).replay s'.log) qs := by
    intro k s' hr
    obtain ⟨qs, es, h1, h2, h3⟩ := locked_runs (n := ops.length + k) (hI _) Rd (fun k h r l F _ => hR k h r l F) (hL _) z1 z2 hr (Nat.le_refl _)
    have h1 : s'.log = es := by rw [h1]; rfl
    exact ⟨qs, by rw [h1]; exact h2, by rw [h1]; exact h3⟩
  refine ⟨fun k s' hr => ?_, fun k s' r' l' hr ho => ?_, fun ts hts σ h hm => ?_⟩
  · obtain ⟨qs, h1, h2⟩ := run k s' hr
    exact h2.promise (n := ops.length + k) Rd (fun h r l F _ => hO h r l F) (Nat.le_refl _) (lruns_follows hr .nil) h1
  · obtain ⟨qs, _, h2⟩ := run k s' hr
    obtain ⟨F, _, f⟩ := z3 _ r' l' h2.next h2.keep ho
    exact hO _ _ _ F f
  · refine lmoves_end hts σ (fun i t p hp => ?_) hm
    obtain ⟨qs, _, h2⟩ := run i (σ i) (by rw [← h]; exact lseq_runs hm i)
    obtain ⟨base, ht⟩ := h2.th t
    obtain ⟨⟨pin, l, n, k1, k2, _⟩, _⟩ := ht.chan hp
    exact ⟨pin, l, n, k1, k2⟩

/-- Goroutines that make at most so many changes. -/
theorem locked_sound_atMost {I : OImpl D O R} {n : Nat} (hI : I.Lawful n) (ops : List (SOp O)) (hl : (Book.init : Book O).LegalAll2 I.cowOk I.inpOk ops)
    (Rd : K → R → Prog D A) (P : K → List O → A → Prop) (Ob : Heap D → R → List O → Prop) {Lp : Loop D R B E} {L : List O → List E → Prop}
    (hR : ∀ k h r l F, l.length ≤ n → I.Obj h r l F → wp (fun _ => False) (Rd k r) (fun x h' => h' = h ∧ P k l x) h)
    (hO : ∀ h r l F, l.length ≤ n → I.Obj h r l F → Ob h r l) (hL : Lp.Lawful I L n) (J : List O → Prop) {ts : List T} (hts : ∀ t, t ∈ ts) (act : T → LAct O K A E)
    (ha : ∀ t, (act t).Legal J I.cowOk I.inpOk P L .free [] []) (k : T → Nat) (hk : ∀ t, (act t).AtMost (k t)) (hn : ops.length + (ts.map k).sum ≤ n) :
    ∃ s, OStore.init.exec I ops = .ok s ∧ ∀ (i : Nat) r v, s.roots[i]? = some r → (Book.init.exec ops).vs[i]? = some v → J v.2 →
      (∀ j u, j ≠ i → (Book.init.exec ops).vs[j]? = some u → u.1 ≠ v.1) →
      LockEnds I Rd Lp P L Ob v.2 (OtherTrees s.roots (Book.init.exec ops).vs i) act (LHub.start s.heap r act) := by
  obtain ⟨s, e, i1⟩ := share_start hI ops hl (by omega) Lp P L J act ha
  refine ⟨s, e, fun i r v hr hv hJ hx => ?_⟩
  obtain ⟨Z, z1, z2, z3⟩ := i1 i r v hr hv hJ hx
  have run : ∀ j s', Spec.Runs (LStep I Rd Lp) j (LHub.start s.heap r act) s' → ∃ qs m, m ≤ n ∧ (LBoard.start v.2).FitsAll P L s'.log ∧
      LockInv I Lp J P L s.heap Z m s' ((LBoard.start v.2).replay s'.log) qs := by
    intro j s' hr
    obtain ⟨m, k', ⟨qs, es, h1, h2, h3⟩, _, h4⟩ := locked_runs_atMost hI Rd hR hL z1 hts z2 hr (k := k) hk hn
    have h1 : s'.log = es := by rw [h1]; rfl
    exact ⟨qs, m, by omega, by rw [h1]; exact h2, by rw [h1]; exact h3⟩
  refine ⟨fun k s' hr => ?_, fun k s' r' l' hr ho => ?_, fun ts hts σ h hm => ?_⟩
  · obtain ⟨qs, m, h0, h1, h2⟩ := run k s' hr
    exact h2.promise Rd hO h0 (lruns_follows hr .nil) h1
  · obtain ⟨qs, m, h0, _, h2⟩ := run k s' hr
    obtain ⟨F, f0, f⟩ := z3 _ r' l' h2.next h2.keep ho
    exact hO _ _ _ F f0 f
  · refine lmoves_end hts σ (fun i t p hp => ?_) hm
    obtain ⟨qs, m, _, _, h2⟩ := run i (σ i) (by rw [← h]; exact lseq_runs hm i)
    obtain ⟨base, ht⟩ := h2.th t
    obtain ⟨⟨pin, l, n, k1, k2, _⟩, _⟩ := ht.chan hp
    exact ⟨pin, l, n, k1, k2⟩

/-- Runs of at most `N` steps, whatever number of changes the goroutines make. -/
theorem locked_sound_upTo {I : OImpl D O R} {n : Nat} (hI : I.Lawful n) (ops : List (SOp O)) (hl : (Book.init : Book O).LegalAll2 I.cowOk I.inpOk ops)
    (Rd : K → R → Prog D A) (P : K → List O → A → Prop) (Ob : Heap D → R → List O → Prop) {Lp : Loop D R B E} {L : List O → List E → Prop}
    (hR : ∀ k h r l F, l.length ≤ n → I.Obj h r l F → wp (fun _ => False) (Rd k r) (fun x h' => h' = h ∧ P k l x) h)
    (hO : ∀ h r l F, l.length ≤ n → I.Obj h r l F → Ob h r l) (hL : Lp.Lawful I L n) (J : List O → Prop) (act : T → LAct O K A E)
    (ha : ∀ t, (act t).Legal J I.cowOk I.inpOk P L .free [] []) (N : Nat) (hn : ops.length + N ≤ n) :
    ∃ s, OStore.init.exec I ops = .ok s ∧ ∀ (i : Nat) r v, s.roots[i]? = some r → (Book.init.exec ops).vs[i]? = some v → J v.2 →
      (∀ j u, j ≠ i → (Book.init.exec ops).vs[j]? = some u → u.1 ≠ v.1) →
      LockUpTo N I Rd Lp P L Ob v.2 (OtherTrees s.roots (Book.init.exec ops).vs i) act (LHub.start s.heap r act) := by
  obtain ⟨s, e, i1⟩ := share_start hI ops hl (by omega) Lp P L J act ha
  refine ⟨s, e, fun i r v hr hv hJ hx => ?_⟩
  obtain ⟨Z, z1, z2, z3⟩ := i1 i r v hr hv hJ hx
  have run : ∀ j s', j ≤ N → Spec.Runs (LStep I Rd Lp) j (LHub.start s.heap r act) s' → ∃ qs, (LBoard.start v.2).FitsAll P L s'.log ∧
      LockInv I Lp J P L s.heap Z (ops.length + j) s' ((LBoard.start v.2).replay s'.log) qs := by
    intro j s' hj hr
    obtain ⟨qs, es, h1, h2, h3⟩ := locked_runs hI Rd hR hL z1 z2 hr (by omega)
    have h1 : s'.log = es := by rw [h1]; rfl
    exact ⟨qs, by rw [h1]; exact h2, by rw [h1]; exact h3⟩
  refine ⟨fun k s' hk hr => ?_, fun k s' r' l' hk hr ho => ?_⟩
  · obtain ⟨qs, h1, h2⟩ := run k s' hk hr
    exact h2.promise Rd hO (by omega) (lruns_follows hr .nil) h1
  · obtain ⟨qs, _, h2⟩ := run k s' hk hr
    obtain ⟨F, f0, f⟩ := z3 _ r' l' h2.next h2.keep ho
    exact hO _ _ _ F f0 f

/-! ## Loops to the end -/

/-- `for e := range ch { body }` and then `k`.  In the body, `c` is the next round; a body that goes on with something else leaves the loop.  The number bounds the rounds; channels
deliver fewer values than the bound of the model (`Loop.rounds`). -/
def LAct.loop (ch : Nat) (body : E → LAct O K A E → LAct O K A E) (k : LAct O K A E) : Nat → LAct O K A E
  | 0 => .done
  | n + 1 => .next ch fun
    | none => k
    | some e => body e (LAct.loop ch body k n)

/-- A rule for loops: `Q` holds of the tree before every round, and the channels are the same but for the one of the loop. -/
theorem LAct.Legal.loop {J : List O → Prop} {ok iok : List O → O → Prop} {P : K → List O → A → Prop} {L : List O → List E → Prop} {md : Mode} {ch : Nat}
    {body : E → LAct O K A E → LAct O K A E} {k : LAct O K A E} (hm : md ≠ .free) (Q : List O → Prop)
    (hb : ∀ e c l qs, Q l → (∀ l', Q l' → c.Legal J ok iok P L md l' qs) → (body e c).Legal J ok iok P L md l qs) {qs : List (Option (List E))}
    (hk : ∀ l, Q l → k.Legal J ok iok P L md l (qs.set ch none)) (hlt : ch < qs.length) : ∀ {es : List E} {n : Nat} {l : List O},
      es.length < n → Q l → (LAct.loop ch body k n).Legal J ok iok P L md l (qs.set ch (some es))
  | [], n + 1, l, _, hl => by
    rw [LAct.loop, LAct.Legal]
    refine ⟨hm, ?_⟩
    rw [List.getElem?_set_self hlt]
    simp only [List.set_set]
    exact hk l hl
  | e :: es, n + 1, l, hn, hl => by
    rw [LAct.loop, LAct.Legal]
    refine ⟨hm, ?_⟩
    rw [List.getElem?_set_self hlt]
    simp only [List.set_set]
    exact hb _ _ _ _ hl fun l' hl' => LAct.Legal.loop hm Q hb hk hlt (by simpa using hn) hl'

/-- Only the programs matter. -/
theorem lstep_congr {I I' : OImpl D O R} (h : ∀ o r, I.cow o r = I'.cow o r ∧ I.inp o r = I'.inp o r) (Rd : K → R → Prog D A) (Lp : Loop D R B E) :
    LStep (T := T) I Rd Lp = LStep I' Rd Lp := by
  have e : ∀ (s : LHub D T O R K A B E) t, s.step I Rd Lp t = s.step I' Rd Lp t := by
    intro s t
    simp only [LHub.step, (h _ _).1, (h _ _).2]
  funext s s'
  refine propext ⟨fun st => ?_, fun st => ?_⟩
  · cases st with
    | act t => rw [e]; exact .act t
    | walk h1 h2 => exact .walk h1 h2
    | recv h1 h2 h3 => exact .recv h1 h2 h3
    | closed h1 h2 => exact .closed h1 h2
  · cases st with
    | act t => rw [← e]; exact .act t
    | walk h1 h2 => exact .walk h1 h2
    | recv h1 h2 h3 => exact .recv h1 h2 h3
    | closed h1 h2 => exact .closed h1 h2

theorem LockPromise.congr {I I' : OImpl D O R} (h : ∀ o r, I.cow o r = I'.cow o r ∧ I.inp o r = I'.inp o r) {Rd : K → R → Prog D A} {Lp : Loop D R B E} {P : K → List O → A → Prop}
    {L : List O → List E → Prop} {Ob : Heap D → R → List O → Prop} {l : List O} {act : T → LAct O K A E} {s : LHub D T O R K A B E} (hp : LockPromise I Rd Lp P L Ob l act s) :
    LockPromise I' Rd Lp P L Ob l act s :=
  ⟨hp.follows, hp.fits, hp.sections, hp.safe, hp.norace, hp.writer, hp.readers, hp.shows, hp.progress, by
    rcases hp.moves with hm | ⟨s', hm⟩
    · exact .inl hm
    · refine .inr ⟨s', ?_⟩
      unfold LMove at hm ⊢
      rw [← lstep_congr h Rd Lp]; exact hm⟩

end Verif.Pipe
