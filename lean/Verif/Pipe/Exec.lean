import Verif.Pipe.Model

/-!
# Running the steps

For concrete executions: two schedules, one that prefers the caller and one that prefers the goroutines.
-/

namespace Verif.Pipe
open Verif.Heap

variable {D X B α : Type}

/-- The caller's step. -/
def turnMain : Sys D X B α → Option (Sys D X B α)
  | ⟨h, .read a k, ks⟩ => (h.mem a).map fun c => ⟨h, k c, ks⟩
  | ⟨h, .write a c k, ks⟩ => some ⟨h.put a c, k, ks⟩
  | ⟨h, .alloc c k, ks⟩ => some ⟨h.push c, k h.next, ks⟩
  | ⟨h, .go g k, ks⟩ => some ⟨h, k ks.length, ks ++ [.mk g []]⟩
  | ⟨h, .recv i k, ks⟩ => match ks[i]? with
    | some (.mk (.send b g) ks') => some ⟨h, k (some b), ks.set i (.mk g ks')⟩
    | some (.mk .done _) => some ⟨h, k none, ks⟩
    | _ => none
  | _ => none

/-- A step of a goroutine that is not a send, or of the one it waits for; the number bounds the depth. -/
def turnProc (φ : Cell D → X) (h : Heap D) : Nat → Proc X B → Option (Proc X B)
  | 0, _ => none
  | n + 1, .mk g ks => match g with
    | .read a k => (h.mem a).map fun c => .mk (k (φ c)) ks
    | .go g' k => some (.mk (k ks.length) (ks ++ [.mk g' []]))
    | .recv i k => match ks[i]? with
      | none => none
      | some p => match p with
        | .mk (.send b g') ks' => some (.mk (k (some b)) (ks.set i (.mk g' ks')))
        | .mk .done _ => some (.mk (k none) ks)
        | p => (turnProc φ h n p).map fun p' => .mk (.recv i k) (ks.set i p')
    | _ => none

/-- A step of the first goroutine that can make one. -/
def turnKids (φ : Cell D → X) (s : Sys D X B α) : Option (Sys D X B α) :=
  (List.range s.kids.length).findSome? fun i => match s.kids[i]? with
    | some p => (turnProc φ s.heap 5 p).map fun p' => ⟨s.heap, s.main, s.kids.set i p'⟩
    | none => none

/-- Up to `n` steps, those of the caller first if `eager`, otherwise those of the goroutines. -/
def drive (φ : Cell D → X) (eager : Bool) : Nat → Sys D X B α → Sys D X B α
  | 0, s => s
  | n + 1, s => match (if eager then (turnMain s).or (turnKids φ s) else (turnKids φ s).or (turnMain s)) with
    | some s' => drive φ eager n s'
    | none => s

theorem turnMain_step {φ : Cell D → X} {s s' : Sys D X B α} (h : turnMain s = some s') : Step φ s s' := by
  obtain ⟨hp, m, ks⟩ := s
  cases m with
  | ret x => cases h
  | stop e => cases h
  | read a k =>
    simp only [turnMain, Option.map_eq_some_iff] at h
    obtain ⟨c, hc, rfl⟩ := h
    exact .read hc
  | write a c k => cases h; exact .write
  | alloc c k => cases h; exact .alloc
  | go g k => cases h; exact .go
  | recv i k =>
    simp only [turnMain] at h
    split at h
    · cases h; rename_i e; exact .recv e .send
    · cases h; rename_i e; exact .closed e
    · cases h

theorem turnProc_step {φ : Cell D → X} {h : Heap D} : ∀ {n : Nat} {p p' : Proc X B}, turnProc φ h n p = some p' → PStep φ h p none p' := by
  intro n
  induction n with
  | zero => intro p p' e; cases e
  | succ n ih =>
    rintro ⟨g, ks⟩ p' e
    simp only [turnProc] at e
    split at e
    · rename_i a k
      simp only [Option.map_eq_some_iff] at e
      obtain ⟨c, hc, rfl⟩ := e
      exact .read hc
    · cases e; exact .go
    · split at e
      · cases e
      · rename_i p hp
        split at e
        · cases e; exact .recv hp .send
        · cases e; exact .closed hp
        · simp only [Option.map_eq_some_iff] at e
          obtain ⟨q, hq, rfl⟩ := e
          exact .kid hp (ih hq)
    · cases e

theorem turnKids_step {φ : Cell D → X} {s s' : Sys D X B α} (h : turnKids φ s = some s') : Step φ s s' := by
  obtain ⟨hp, m, ks⟩ := s
  obtain ⟨i, _, hi⟩ := List.exists_of_findSome?_eq_some h
  simp only at hi
  split at hi
  · rename_i p e
    simp only [Option.map_eq_some_iff] at hi
    obtain ⟨q, hq, rfl⟩ := hi
    exact .kid e (turnProc_step hq)
  · cases hi

theorem drive_runs {φ : Cell D → X} {eager : Bool} {s0 : Sys D X B α} : ∀ (n : Nat) {k : Nat} {s : Sys D X B α}, Spec.Runs (Step φ) k s0 s →
    ∃ k, Spec.Runs (Step φ) k s0 (drive φ eager n s)
  | 0, k, s, hr => ⟨k, hr⟩
  | n + 1, k, s, hr => by
    simp only [drive]
    split
    · rename_i s' e
      refine drive_runs n (hr.step ?_)
      cases eager
      · simp only [Bool.false_eq_true, if_false, Option.or_eq_some_iff] at e
        rcases e with e | ⟨_, e⟩
        · exact turnKids_step e
        · exact turnMain_step e
      · simp only [if_true, Option.or_eq_some_iff] at e
        rcases e with e | ⟨_, e⟩
        · exact turnMain_step e
        · exact turnKids_step e
    · exact ⟨k, hr⟩

/-- The answer the caller has arrived at. -/
def Sys.answer (s : Sys D X B α) : Option α := match s.main with
  | .ret x => some x
  | _ => none

theorem Sys.answer_eq {s : Sys D X B α} {x : α} (h : s.answer = some x) : s.main = .ret x := by
  unfold Sys.answer at h
  split at h
  · rename_i e; cases h; exact e
  · cases h

/-- The answer in one of the two schedules. -/
def outcome (φ : Cell D → X) (eager : Bool) (n : Nat) (m : Main D X B α) (h : Heap D) : Option α := (drive φ eager n ⟨h, m, []⟩).answer

/-- Where the two schedules differ, the answer depends on the schedule. -/
theorem two_answers {φ : Cell D → X} {m : Main D X B α} {h : Heap D} {β : Type} (g : α → β) {n1 n2 : Nat} {x y : β}
    (h1 : (outcome φ true n1 m h).map g = some x) (h2 : (outcome φ false n2 m h).map g = some y) (hne : x ≠ y) :
    ¬ ∃ z, Ends φ m h fun a _ => g a = z := by
  rintro ⟨z, hz⟩
  have key : ∀ b n x, (outcome φ b n m h).map g = some x → x = z := by
    intro b n x hx
    simp only [Option.map_eq_some_iff] at hx
    obtain ⟨a, ha, rfl⟩ := hx
    obtain ⟨k, hk⟩ := drive_runs (φ := φ) (eager := b) n (.refl ⟨h, m, []⟩)
    exact hz.result _ _ _ hk (Sys.answer_eq ha)
  exact hne ((key _ _ _ h1).trans (key _ _ _ h2).symm)

end Verif.Pipe
