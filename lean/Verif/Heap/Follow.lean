import Verif.Heap.Lift
import Verif.RBHeap.Panic

/-!
# A program that breaks off where another one goes on without effect

`p` ends in some state; in a dead state it does nothing but read.  `x` does what `p` does but panics where `p` gets into a dead state.
-/

namespace Verif.Heap
open Prog
variable {D E σ : Type}

/-- The program writes nothing and ends in a dead state, if it ends. -/
inductive Idle (dead : σ → Prop) : Prog D σ → Prop where
  | ret {s : σ} : dead s → Idle dead (.ret s)
  | stop {e : Err} : Idle dead (.stop e)
  | read {a : Addr} {k : Cell D → Prog D σ} : (∀ c, Idle dead (k c)) → Idle dead (.read a k)

/-- The second program breaks off where the first gets into a dead state. -/
inductive BreaksOff (dead : σ → Prop) : Prog D σ → Prog D σ → Prop where
  | ret {s : σ} : ¬ dead s → BreaksOff dead (.ret s) (.ret s)
  | stop {e : Err} : BreaksOff dead (.stop e) (.stop e)
  | panic {p : Prog D σ} : Idle dead p → BreaksOff dead p (.stop .panic)
  | read {a : Addr} {k k' : Cell D → Prog D σ} : (∀ c, BreaksOff dead (k c) (k' c)) → BreaksOff dead (.read a k) (.read a k')
  | write {a : Addr} {c : Cell D} {k k' : Prog D σ} : BreaksOff dead k k' → BreaksOff dead (.write a c k) (.write a c k')
  | alloc {c : Cell D} {k k' : Addr → Prog D σ} : (∀ a, BreaksOff dead (k a) (k' a)) → BreaksOff dead (.alloc c k) (.alloc c k')

variable {dead : σ → Prop}

theorem Idle.run {p : Prog D σ} (hp : Idle dead p) {h h' : Heap D} {s : σ} (e : p.run h = .ok (s, h')) : dead s ∧ h' = h := by
  induction hp with
  | ret hs => cases e; exact ⟨hs, rfl⟩
  | stop => cases e
  | read _ ih =>
    simp only [Prog.run] at e
    split at e
    · exact ih _ e
    · cases e

theorem BreaksOff.run {p x : Prog D σ} (hp : BreaksOff dead p x) {h h' : Heap D} {s : σ} (e : p.run h = .ok (s, h')) :
    (¬ dead s ∧ x.runH h = (.ok s, h')) ∨ (dead s ∧ x.runH h = (.error .panic, h')) := by
  induction hp generalizing h with
  | ret hs => cases e; exact .inl ⟨hs, rfl⟩
  | stop => cases e
  | panic hp =>
    obtain ⟨h1, rfl⟩ := hp.run e
    exact .inr ⟨h1, rfl⟩
  | read _ ih =>
    simp only [Prog.run] at e
    simp only [Prog.runH]
    split at e
    · next hc => simp only [hc]; exact ih _ e
    · cases e
  | write _ ih => exact ih e
  | alloc _ ih => exact ih _ e

theorem Idle.bind {α : Type} {p : Prog D α} {k : α → Prog D σ} (hp : Idle (fun x => Idle dead (k x)) p) : Idle dead (p.bind k) := by
  induction hp with
  | ret h => exact h
  | stop => exact .stop
  | read _ ih => exact .read ih

theorem Idle.mono {dead' : σ → Prop} {p : Prog D σ} (hp : Idle dead p) (h : ∀ s, dead s → dead' s) : Idle dead' p := by
  induction hp with
  | ret hs => exact .ret (h _ hs)
  | stop => exact .stop
  | read _ ih => exact .read ih

/-- Idle first, idle afterwards. -/
theorem Idle.then {p : Prog D σ} (hp : Idle dead p) {k : σ → Prog D σ} (hk : ∀ s, dead s → Idle dead (k s)) : Idle dead (p.bind k) := (hp.mono hk).bind

theorem BreaksOff.then {p x : Prog D σ} (hp : BreaksOff dead p x) {k k' : σ → Prog D σ} (hk : ∀ s, ¬ dead s → BreaksOff dead (k s) (k' s))
    (hd : ∀ s, dead s → Idle dead (k s)) : BreaksOff dead (p.bind k) (x.bind k') := by
  induction hp with
  | ret h => exact hk _ h
  | stop => exact .stop
  | panic h => exact .panic (h.then hd)
  | read _ ih => exact .read ih
  | write _ ih => exact .write ih
  | alloc _ ih => exact .alloc ih

/-- Any common beginning. -/
theorem BreaksOff.after {α : Type} (p : Prog D α) {k k' : α → Prog D σ} (hk : ∀ y, BreaksOff dead (k y) (k' y)) : BreaksOff dead (p.bind k) (p.bind k') := by
  induction p with
  | ret y => exact hk y
  | stop e => exact .stop
  | read a c ih => exact .read ih
  | write a c q ih => exact .write ih
  | alloc c q ih => exact .alloc ih

theorem Idle.load {k : Cell D → Prog D σ} (p : Ptr) (hk : ∀ c, Idle dead (k c)) : Idle dead ((load p).bind k) := by
  cases p with
  | none => exact .stop
  | some a => exact .read hk

theorem Idle.lift (K : Kind D E) {p : Prog D σ} (hp : Idle dead p) : Idle dead (p.lift K) := by
  induction hp with
  | ret h => exact .ret h
  | stop => exact .stop
  | read _ ih =>
    rw [Prog.lift]
    refine .read fun c => ?_
    cases K.cell c with
    | none => exact .stop
    | some d => exact ih d

theorem BreaksOff.lift (K : Kind D E) {p x : Prog D σ} (hp : BreaksOff dead p x) : BreaksOff dead (p.lift K) (x.lift K) := by
  induction hp with
  | ret h => exact .ret h
  | stop => exact .stop
  | panic h => exact .panic (h.lift K)
  | read _ ih =>
    rw [Prog.lift, Prog.lift]
    refine .read fun c => ?_
    cases K.cell c with
    | none => exact .stop
    | some d => exact ih d
  | write _ ih => exact .write ih
  | alloc _ ih => exact .alloc ih

end Verif.Heap
