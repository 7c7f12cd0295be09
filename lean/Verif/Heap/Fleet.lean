import Verif.Heap.Interleave

/-!
# Any number of threads taking turns

All threads start on the same memory; a schedule says whose memory access comes next.  Cells that exist at the start are
shared: a write by one thread is seen by all.  New cells are named by the thread that makes them (every thread has its own
supply of addresses above the start of the free memory), so a thread sees the shared cells and the cells it made itself.  The
programs use addresses only to read, write, store and compare them, never to compute with them.  Threads do not hand new cells
to each other while they run (that needs synchronisation in Go).
-/

namespace Verif.Heap
open Prog
variable {D T : Type} {α : T → Type}

/-- Threads `T`, the shared cells (addresses below `base`), and the cells made by each thread. -/
structure Fleet (D T : Type) (α : T → Type) where
  base : Nat
  shared : Nat → Option (Cell D)
  prog : (t : T) → Prog D (α t)
  own : T → Heap D

/-- The memory as thread `t` sees it. -/
def Fleet.view (s : Fleet D T α) (t : T) : Heap D :=
  ⟨fun a => if a < s.base then s.shared a else (s.own t).mem a, (s.own t).next⟩

/-- All threads at their start on memory `h`. -/
def Fleet.start (h : Heap D) (P : (t : T) → Prog D (α t)) : Fleet D T α := ⟨h.next, h.mem, P, fun _ => h⟩

/-- One memory access of thread `t`.  A thread that has ended lets its turn pass. -/
def Fleet.step [DecidableEq T] (s : Fleet D T α) (t : T) : Fleet D T α :=
  match (s.prog t).step (s.view t) with
  | none => s
  | some (p, h) =>
    { base := s.base
      shared := fun a => if a < s.base then h.mem a else s.shared a
      prog := fun u => if e : u = t then e ▸ p else s.prog u
      own := fun u => if u = t then h else s.own u }

/-- A schedule. -/
def Fleet.exec [DecidableEq T] (s : Fleet D T α) : List T → Fleet D T α
  | [] => s
  | t :: ts => (s.step t).exec ts

/-- The cell the next access of the program writes, if it is a write. -/
def Prog.writes {β : Type} : Prog D β → Option Nat
  | .write a _ _ => some a
  | _ => none

/-- One access of a thread that keeps off the shared cells: it proceeds as alone. -/
theorem step_solo {β : Type} {W : Nat → Prop} {Q : β → Heap D → Prop} {p q : Prog D β} {h h' : Heap D} (hp : wp W p Q h) (hs : p.step h = some (q, h')) :
    wp W q Q h' ∧ q.run h' = p.run h ∧ q.left h' + 1 = p.left h ∧ h.next ≤ h'.next ∧ (∀ a, a < h.next → ¬ W a → h'.mem a = h.mem a) := by
  cases p with
  | ret x => cases hs
  | stop e => cases hs
  | read a k =>
    obtain ⟨c, h1, h2⟩ := hp
    simp only [Prog.step, h1, Option.some.injEq, Prod.mk.injEq] at hs
    obtain ⟨rfl, rfl⟩ := hs
    refine ⟨h2, ?_, ?_, Nat.le_refl _, fun _ _ _ => rfl⟩
    · simp only [Prog.run, h1]
    · simp only [Prog.left, h1]
  | write a c k =>
    obtain ⟨h1, _, h2⟩ := hp
    simp only [Prog.step, Option.some.injEq, Prod.mk.injEq] at hs
    obtain ⟨rfl, rfl⟩ := hs
    refine ⟨h2, rfl, rfl, Nat.le_refl _, fun b _ hW => ?_⟩
    rw [Heap.mem_put, if_neg (by rintro rfl; exact hW h1)]
  | alloc c k =>
    simp only [Prog.step, Option.some.injEq, Prod.mk.injEq] at hs
    obtain ⟨rfl, rfl⟩ := hs
    refine ⟨hp, rfl, rfl, by simp, fun b hb hW => ?_⟩
    rw [Heap.mem_push, if_neg (by omega)]

theorem step_none {β : Type} {W : Nat → Prop} {Q : β → Heap D → Prop} {p : Prog D β} {h : Heap D} (hp : wp W p Q h) (hs : p.step h = none) :
    ∃ x, p = .ret x ∧ Q x h := by
  cases p with
  | ret x => exact ⟨x, rfl, hp⟩
  | stop e => exact hp.elim
  | read a k =>
    obtain ⟨c, h1, h2⟩ := hp
    simp [Prog.step, h1] at hs
  | write a c k => cases hs
  | alloc c k => cases hs

/-- Invariant of every schedule. -/
structure Fleet.Inv (h0 : Heap D) (P : (t : T) → Prog D (α t)) (Q : (t : T) → α t → Heap D → Prop) (n : T → Nat) (s : Fleet D T α) : Prop where
  base : s.base = h0.next
  shared : ∀ a, a < h0.next → s.shared a = h0.mem a
  next : ∀ t, h0.next ≤ (s.own t).next
  wp : ∀ t, Prog.wp (fun a => h0.next ≤ a) (s.prog t) (Q t) (s.view t)
  run : ∀ t, (s.prog t).run (s.view t) = (P t).run h0
  left : ∀ t, (s.prog t).left (s.view t) ≤ (P t).left h0 - n t

theorem Fleet.inv_start {h0 : Heap D} {P : (t : T) → Prog D (α t)} {Q : (t : T) → α t → Heap D → Prop}
    (hw : ∀ t, wp (fun a => h0.next ≤ a) (P t) (Q t) h0) : (Fleet.start h0 P).Inv h0 P Q (fun _ => 0) := by
  have hv : ∀ t, (Fleet.start h0 P).view t = h0 := fun t => by
    show Heap.mk (fun a => if a < h0.next then h0.mem a else h0.mem a) h0.next = h0
    have : (fun a => if a < h0.next then h0.mem a else h0.mem a) = h0.mem := by funext a; split <;> rfl
    rw [this]
  refine ⟨rfl, fun _ _ => rfl, fun _ => Nat.le_refl _, fun t => ?_, fun t => ?_, fun t => ?_⟩
  · rw [hv]; exact hw t
  · rw [hv]; rfl
  · rw [hv]; exact Nat.le_refl _

theorem Fleet.inv_step [DecidableEq T] {h0 : Heap D} {P : (t : T) → Prog D (α t)} {Q : (t : T) → α t → Heap D → Prop} {n : T → Nat} {s : Fleet D T α}
    (hi : s.Inv h0 P Q n) (t : T) : (s.step t).Inv h0 P Q (fun u => n u + if u = t then 1 else 0) := by
  cases hs : (s.prog t).step (s.view t) with
  | none =>
    have e : s.step t = s := by simp only [Fleet.step, hs]
    rw [e]
    refine ⟨hi.base, hi.shared, hi.next, hi.wp, hi.run, fun u => ?_⟩
    by_cases e : u = t
    · subst e
      obtain ⟨x, hx, _⟩ := step_none (hi.wp u) hs
      rw [hx]; simp [Prog.left]
    · rw [if_neg e]; exact hi.left u
  | some ph =>
    obtain ⟨p, h⟩ := ph
    obtain ⟨s1, s2, s3, s4, s5⟩ := step_solo (hi.wp t) hs
    have hsh : ∀ a, a < h0.next → h.mem a = h0.mem a := by
      intro a ha
      have hn : a < (s.view t).next := Nat.lt_of_lt_of_le ha (hi.next t)
      rw [s5 a hn (by omega)]
      simp only [Fleet.view, hi.base, if_pos ha, hi.shared a ha]
    have eb : (s.step t).base = h0.next := by simp only [Fleet.step, hs]; exact hi.base
    have hshared : ∀ a, a < h0.next → (s.step t).shared a = h0.mem a := by
      intro a ha
      simp only [Fleet.step, hs, hi.base, if_pos ha]
      exact hsh a ha
    have evt : (s.step t).view t = h := by
      obtain ⟨hm, hn⟩ := h
      simp only [Fleet.view, eb]
      congr 1
      · funext a
        by_cases ha : a < h0.next
        · rw [if_pos ha, hshared a ha, ← hsh a ha]
        · rw [if_neg ha]; simp only [Fleet.step, hs, if_true]
      · simp only [Fleet.step, hs, if_true]
    have evu : ∀ u, u ≠ t → (s.step t).view u = s.view u := by
      intro u hu
      simp only [Fleet.view, eb]
      congr 1
      · funext a
        by_cases ha : a < h0.next
        · rw [if_pos ha, hshared a ha, hi.base, if_pos ha, hi.shared a ha]
        · rw [if_neg ha, hi.base, if_neg ha]; simp only [Fleet.step, hs, if_neg hu]
      · simp only [Fleet.step, hs, if_neg hu]
    have ept : (s.step t).prog t = p := by simp only [Fleet.step, hs, dite_true]
    have epu : ∀ u, u ≠ t → (s.step t).prog u = s.prog u := by
      intro u hu; simp only [Fleet.step, hs, dif_neg hu]
    refine ⟨eb, hshared, fun u => ?_, fun u => ?_, fun u => ?_, fun u => ?_⟩
    · by_cases e : u = t
      · subst e
        have : ((s.step u).view u).next = ((s.step u).own u).next := rfl
        rw [← this, evt]
        exact Nat.le_trans (hi.next u) s4
      · have : ((s.step t).view u).next = ((s.step t).own u).next := rfl
        rw [← this, evu u e]
        exact hi.next u
    · by_cases e : u = t
      · subst e; rw [evt, ept]; exact s1
      · rw [evu u e, epu u e]; exact hi.wp u
    · by_cases e : u = t
      · subst e; rw [evt, ept, s2]; exact hi.run u
      · rw [evu u e, epu u e]; exact hi.run u
    · by_cases e : u = t
      · subst e
        have := hi.left u
        rw [evt, ept, if_pos rfl]; omega
      · rw [evu u e, epu u e, if_neg e]; exact hi.left u

theorem Fleet.inv_exec [DecidableEq T] {h0 : Heap D} {P : (t : T) → Prog D (α t)} {Q : (t : T) → α t → Heap D → Prop} {n : T → Nat} {s : Fleet D T α}
    (hi : s.Inv h0 P Q n) (sched : List T) : (s.exec sched).Inv h0 P Q (fun u => n u + sched.count u) := by
  induction sched generalizing s n with
  | nil => exact hi
  | cons t ts ih =>
    have := ih (Fleet.inv_step hi t)
    have e : (fun u => n u + List.count u (t :: ts)) = fun u => (n u + if u = t then 1 else 0) + ts.count u := by
      funext u
      rw [List.count_cons]
      by_cases e : u = t
      · subst e; simp; omega
      · have : ¬ t = u := fun h => e h.symm
        simp [e, this]
    rw [e]; exact this

/-- Every schedule of any number of threads none of which writes to a cell that existed at the start: no thread ever fails or is
about to write such a cell, a thread has ended when it had enough turns, and it ends with the result and memory of a run alone. -/
theorem fleet_result [DecidableEq T] {h0 : Heap D} {P : (t : T) → Prog D (α t)} {Q : (t : T) → α t → Heap D → Prop}
    (hw : ∀ t, wp (fun a => h0.next ≤ a) (P t) (Q t) h0) (sched : List T) (t : T) :
    let s := (Fleet.start h0 P).exec sched
    (∀ e, s.prog t ≠ .stop e) ∧ (∀ a, (s.prog t).writes = some a → h0.next ≤ a) ∧
    ((P t).left h0 ≤ sched.count t → ∃ x, s.prog t = .ret x) ∧
    (∀ x, s.prog t = .ret x → (P t).run h0 = .ok (x, s.view t) ∧ Q t x (s.view t)) ∧
    h0.next ≤ (s.view t).next ∧ ∀ a, a < h0.next → (s.view t).mem a = h0.mem a := by
  intro s
  have hi : s.Inv h0 P Q (fun u => 0 + sched.count u) := Fleet.inv_exec (Fleet.inv_start hw) sched
  have hwp := hi.wp t
  refine ⟨?_, ?_, ?_, ?_, hi.next t, ?_⟩
  · intro e he; rw [he] at hwp; exact hwp
  · intro a ha
    cases hp : s.prog t with
    | write b c k =>
      rw [hp] at ha hwp
      simp only [Prog.writes, Option.some.injEq] at ha
      subst ha; exact hwp.1
    | ret x => rw [hp] at ha; cases ha
    | stop x => rw [hp] at ha; cases ha
    | read x k => rw [hp] at ha; cases ha
    | alloc x k => rw [hp] at ha; cases ha
  · intro hc
    have hl := hi.left t
    cases hs : (s.prog t).step (s.view t) with
    | none => obtain ⟨x, hx, _⟩ := step_none hwp hs; exact ⟨x, hx⟩
    | some ph =>
      have := (step_solo hwp (show _ = some (ph.1, ph.2) from hs)).2.2.1
      omega
  · intro x hx
    have hr := hi.run t
    rw [hx] at hr hwp
    exact ⟨hr.symm, hwp⟩
  · intro a ha
    simp only [Fleet.view, hi.base, if_pos ha, hi.shared a ha]

end Verif.Heap
