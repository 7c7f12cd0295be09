import Verif.Pipe.Exec
import Verif.Pipe.LockedEnds

/-!
# Running goroutines that loop over Enumerate under a read-write lock

For concrete executions: a schedule says whose turn it is.
-/

namespace Verif.Pipe
open Verif.Heap
variable {D T O R K A B E : Type} [DecidableEq T]

/-- One turn: `(t, 0)` of goroutine `t`, `(t, ch + 1)` of the goroutine behind its `ch`-th channel. -/
def LHub.turn (I : OImpl D O R) (Rd : K → R → Prog D A) (Lp : Loop D R B E) (s : LHub D T O R K A B E) : T × Nat → LHub D T O R K A B E
  | (t, 0) => match (s.th t).phase with
    | .idle (.next ch c) => match (s.th t).chans[ch]? with
      | some (.mk (.send b g) ks) => s.put t ⟨.taking ch (Lp.item b) c, (s.th t).chans.set ch (.mk g ks)⟩
      | some (.mk .done _) => (s.to t (.idle (c none))).note (.got t ch none)
      | _ => s
    | _ => s.step I Rd Lp t
  | (t, ch + 1) => match (s.th t).chans[ch]? with
    | none => s
    | some p => match turnProc id s.heap 5 p with
      | none => s
      | some p' => s.put t ⟨(s.th t).phase, (s.th t).chans.set ch p'⟩

/-- Some turns. -/
def LHub.turns (I : OImpl D O R) (Rd : K → R → Prog D A) (Lp : Loop D R B E) : LHub D T O R K A B E → List (T × Nat) → LHub D T O R K A B E
  | s, [] => s
  | s, d :: ds => (s.turn I Rd Lp d).turns I Rd Lp ds

theorem LHub.turn_step (I : OImpl D O R) (Rd : K → R → Prog D A) (Lp : Loop D R B E) (s : LHub D T O R K A B E) (d : T × Nat) :
    s.turn I Rd Lp d = s ∨ LStep I Rd Lp s (s.turn I Rd Lp d) := by
  obtain ⟨t, ch⟩ := d
  cases ch with
  | zero =>
    simp only [LHub.turn]
    split
    · rename_i ch c e
      split
      · rename_i b g ks e2
        exact .inr (.recv e e2 .send)
      · rename_i ks e2
        exact .inr (.closed e e2)
      · exact .inl rfl
    · exact .inr (.act t)
  | succ ch =>
    simp only [LHub.turn]
    split
    · exact .inl rfl
    · rename_i p e
      split
      · exact .inl rfl
      · rename_i p' e2
        exact .inr (.walk e (turnProc_step e2))

theorem LHub.turns_runs (I : OImpl D O R) (Rd : K → R → Prog D A) (Lp : Loop D R B E) {s0 : LHub D T O R K A B E} (ds : List (T × Nat)) :
    ∀ {k : Nat} {s : LHub D T O R K A B E}, Spec.Runs (LStep I Rd Lp) k s0 s → ∃ k, Spec.Runs (LStep I Rd Lp) k s0 (s.turns I Rd Lp ds) := by
  induction ds with
  | nil => exact fun hr => ⟨_, hr⟩
  | cons d ds ih =>
    intro k s hr
    rcases s.turn_step I Rd Lp d with e | e
    · simp only [LHub.turns]
      rw [e]; exact ih hr
    · exact ih (hr.step e)

/-- All values goroutine `t` received, in order. -/
def receivedUnder (t : T) : List (LEvent T O K A E) → List (Option E)
  | [] => []
  | .got u _ x :: es => if u = t then x :: receivedUnder t es else receivedUnder t es
  | _ :: es => receivedUnder t es

/-- All answers goroutine `t` got, in order. -/
def answeredUnder (t : T) : List (LEvent T O K A E) → List A
  | [] => []
  | .plain (.answer u _ a) :: es => if u = t then a :: answeredUnder t es else answeredUnder t es
  | _ :: es => answeredUnder t es

/-- Goroutine `t` has come to its end. -/
def LHub.over (s : LHub D T O R K A B E) (t : T) : Bool := match (s.th t).phase with
  | .idle .done => true
  | _ => false

end Verif.Pipe
