import Verif.Pipe.Exec
import Verif.Pipe.RangingEnds

/-!
# Running goroutines that loop over Enumerate

For concrete executions: a schedule says whose turn it is.
-/

namespace Verif.Pipe
open Verif.Heap
variable {D T O R K A B E : Type} [DecidableEq T]

/-- One turn: `(t, 0)` of goroutine `t`, `(t, ch + 1)` of the goroutine behind its `ch`-th channel. -/
def RHub.turn (I : OImpl D O R) (Rd : K → R → Prog D A) (Lp : Loop D R B E) (s : RHub D T O R K A B E) : T × Nat → RHub D T O R K A B E
  | (t, 0) => match (s.th t).phase with
    | .idle (.next ch c) => match (s.th t).chans[ch]? with
      | some (.mk (.send b g) ks) => s.put t ⟨(s.th t).roots, .taking ch (Lp.item b) c, (s.th t).chans.set ch (.mk g ks)⟩
      | some (.mk .done _) => (s.to t (.idle (c none))).note (.got t ch none)
      | _ => s
    | _ => s.step I Rd Lp t
  | (t, ch + 1) => match (s.th t).chans[ch]? with
    | none => s
    | some p => match turnProc id s.heap 5 p with
      | none => s
      | some p' => s.put t { s.th t with chans := (s.th t).chans.set ch p' }

/-- Some turns. -/
def RHub.turns (I : OImpl D O R) (Rd : K → R → Prog D A) (Lp : Loop D R B E) : RHub D T O R K A B E → List (T × Nat) → RHub D T O R K A B E
  | s, [] => s
  | s, d :: ds => (s.turn I Rd Lp d).turns I Rd Lp ds

theorem RHub.turn_step (I : OImpl D O R) (Rd : K → R → Prog D A) (Lp : Loop D R B E) (s : RHub D T O R K A B E) (d : T × Nat) :
    s.turn I Rd Lp d = s ∨ RStep I Rd Lp s (s.turn I Rd Lp d) := by
  obtain ⟨t, ch⟩ := d
  cases ch with
  | zero =>
    simp only [RHub.turn]
    split
    · rename_i ch c e
      split
      · rename_i b g ks e2
        exact .inr (.recv e e2 .send)
      · rename_i ks e2
        exact .inr (.closed e e2)
      · exact .inl rfl
    · exact .inr (.act t)
  | succ ch =>
    simp only [RHub.turn]
    split
    · exact .inl rfl
    · rename_i p e
      split
      · exact .inl rfl
      · rename_i p' e2
        exact .inr (.walk e (turnProc_step e2))

theorem RHub.turns_runs (I : OImpl D O R) (Rd : K → R → Prog D A) (Lp : Loop D R B E) {s0 : RHub D T O R K A B E} (ds : List (T × Nat)) :
    ∀ {k : Nat} {s : RHub D T O R K A B E}, Spec.Runs (RStep I Rd Lp) k s0 s → ∃ k, Spec.Runs (RStep I Rd Lp) k s0 (s.turns I Rd Lp ds) := by
  induction ds with
  | nil => exact fun hr => ⟨_, hr⟩
  | cons d ds ih =>
    intro k s hr
    rcases s.turn_step I Rd Lp d with e | e
    · simp only [RHub.turns]
      rw [e]; exact ih hr
    · exact ih (hr.step e)

/-- All values received by goroutine `t`, in order. -/
def receivedBy (t : T) : List (REvent T O K A E) → List (Option E)
  | [] => []
  | .got u _ x :: es => if u = t then x :: receivedBy t es else receivedBy t es
  | _ :: es => receivedBy t es

/-- All answers goroutine `t` got, in order. -/
def answeredTo (t : T) : List (REvent T O K A E) → List (Option A)
  | [] => []
  | .plain (.answer u _ _ a) :: es => if u = t then a :: answeredTo t es else answeredTo t es
  | _ :: es => answeredTo t es

/-- Goroutine `t` has come to its end. -/
def RHub.over (s : RHub D T O R K A B E) (t : T) : Bool := match (s.th t).phase with
  | .idle .done => true
  | _ => false

end Verif.Pipe
