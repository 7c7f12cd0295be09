import Verif.Pipe.Crew
import Verif.Pipe.Exec

/-!
# Running the steps of several callers

For concrete executions.
-/

namespace Verif.Pipe
open Verif.Heap

variable {D X B α T : Type}

/-- A step of the caller first if `eager`, otherwise of its goroutines. -/
def pick (φ : Cell D → X) (eager : Bool) (s : Sys D X B α) : Option (Sys D X B α) :=
  if eager then (turnMain s).or (turnKids φ s) else (turnKids φ s).or (turnMain s)

theorem pick_step {φ : Cell D → X} {eager : Bool} {s s' : Sys D X B α} (e : pick φ eager s = some s') : Step φ s s' := by
  unfold pick at e
  cases eager
  · simp only [Bool.false_eq_true, if_false, Option.or_eq_some_iff] at e
    rcases e with e | ⟨_, e⟩
    · exact turnKids_step e
    · exact turnMain_step e
  · simp only [if_true, Option.or_eq_some_iff] at e
    rcases e with e | ⟨_, e⟩
    · exact turnMain_step e
    · exact turnKids_step e

/-- A step of thread `t`, if it can make one. -/
def turn [DecidableEq T] (φ : Cell D → X) (eager : Bool) (c : Crew D X B α T) (t : T) : Crew D X B α T :=
  match pick φ eager (c.view t) with
  | some s => ⟨c.base, fun a => if a < c.base then s.heap.mem a else c.shared a, fun u => if u = t then s else c.sys u⟩
  | none => c

/-- A schedule. -/
def crewTurns [DecidableEq T] (φ : Cell D → X) (eager : Bool) : List T → Crew D X B α T → Crew D X B α T
  | [], c => c
  | t :: ts, c => crewTurns φ eager ts (turn φ eager c t)

theorem crewTurns_runs [DecidableEq T] {φ : Cell D → X} {eager : Bool} {c0 : Crew D X B α T} : ∀ (ts : List T) {l : List T} {c : Crew D X B α T}, CrewRuns φ c0 l c →
    ∃ l, CrewRuns φ c0 l (crewTurns φ eager ts c)
  | [], l, c, hr => ⟨l, hr⟩
  | t :: ts, l, c, hr => by
    simp only [crewTurns, turn]
    cases e : pick φ eager (c.view t) with
    | none => exact crewTurns_runs ts hr
    | some s => exact crewTurns_runs ts (hr.step (t := t) (.of (pick_step e)))

/-- The answers the threads have arrived at after a schedule. -/
def crewAnswer [DecidableEq T] (φ : Cell D → X) (eager : Bool) (ts : List T) (m : T → Main D X B α) (h : Heap D) (t : T) : Option α :=
  ((crewTurns φ eager ts (Crew.start h m)).sys t).answer

/-- Where two schedules differ, the answer of a thread depends on the schedule. -/
theorem crew_two_answers [DecidableEq T] {φ : Cell D → X} {m : T → Main D X B α} {h : Heap D} {β : Type} (g : α → β) {t : T} {ts us : List T} {x y : β}
    (h1 : (crewAnswer φ true ts m h t).map g = some x) (h2 : (crewAnswer φ true us m h t).map g = some y) (hne : x ≠ y) :
    ¬ ∃ z, ∀ l c, CrewRuns φ (Crew.start h m) l c → ∀ a, (c.sys t).main = .ret a → g a = z := by
  rintro ⟨z, hz⟩
  have key : ∀ ts x, (crewAnswer φ true ts m h t).map g = some x → x = z := by
    intro ts x hx
    simp only [Option.map_eq_some_iff] at hx
    obtain ⟨a, ha, rfl⟩ := hx
    obtain ⟨l, hl⟩ := crewTurns_runs (φ := φ) (eager := true) (c0 := Crew.start h m) ts .refl
    exact hz l _ hl a (Sys.answer_eq ha)
  exact hne ((key _ _ h1).trans (key _ _ h2).symm)

end Verif.Pipe
