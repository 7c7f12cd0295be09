import Verif.Heap.Prog

/-!
# A reader and a writer taking turns

Two threads share the memory; a schedule says at each point whose memory access comes next.  Memory accesses are atomic and
sequentially consistent (the Go memory model below that is not modelled).
-/

namespace Verif.Heap
open Prog
variable {D α β : Type}

/-- One memory access of a program (none when it has ended). -/
def Prog.step : Prog D α → Heap D → Option (Prog D α × Heap D)
  | .ret _, _ => none
  | .stop _, _ => none
  | .read a k, h => match h.mem a with
    | some c => some (k c, h)
    | none => some (.stop .panic, h)
  | .write a c k, h => some (k, h.put a c)
  | .alloc c k, h => some (k h.next, h.push c)

/-- Two threads and the memory. -/
structure Duo (D α β : Type) where
  reader : Prog D α
  writer : Prog D β
  heap : Heap D

/-- One scheduled access: `true` is the reader's turn.  A thread that has ended lets its turn pass. -/
def Duo.step (s : Duo D α β) : Bool → Duo D α β
  | true => match s.reader.step s.heap with
    | some (r, h) => { s with reader := r, heap := h }
    | none => s
  | false => match s.writer.step s.heap with
    | some (w, h) => { s with writer := w, heap := h }
    | none => s

/-- A schedule. -/
def Duo.exec (s : Duo D α β) : List Bool → Duo D α β
  | [] => s
  | b :: bs => (s.step b).exec bs

/-- Number of accesses left in a run of the program alone. -/
def Prog.left : Prog D α → Heap D → Nat
  | .ret _, _ => 0
  | .stop _, _ => 0
  | .read a k, h => match h.mem a with
    | some c => (k c).left h + 1
    | none => 1
  | .write a c k, h => k.left (h.put a c) + 1
  | .alloc c k, h => (k h.next).left (h.push c) + 1

/-- A program that only reads. -/
def Prog.ReadOnly : Prog D α → Prop
  | .ret _ => True
  | .stop _ => True
  | .read _ k => ∀ c, (k c).ReadOnly
  | .write _ _ _ => False
  | .alloc _ _ => False

namespace Prog.ReadOnly

theorem pure (x : α) : (Pure.pure x : Prog D α).ReadOnly := trivial

theorem bind' {p : Prog D α} {f : α → Prog D β} (hp : p.ReadOnly) (hf : ∀ x, (f x).ReadOnly) : (p.bind f).ReadOnly := by
  induction p with
  | ret x => exact hf x
  | stop e => trivial
  | read a k ih => exact fun c => ih c (hp c)
  | write a c k => exact hp.elim
  | alloc c k => exact hp.elim

theorem bind {p : Prog D α} {f : α → Prog D β} (hp : p.ReadOnly) (hf : ∀ x, (f x).ReadOnly) : (p >>= f).ReadOnly := bind' hp hf

theorem load (p : Ptr) : (Prog.load p : Prog D (Cell D)).ReadOnly := by cases p with
  | none => trivial
  | some a => exact fun _ => trivial

theorem ifNotNil (p : Ptr) (x : α) {k : Prog D α} (hk : k.ReadOnly) : (Prog.ifNotNil p x k).ReadOnly := by
  cases p with
  | none => trivial
  | some a => exact hk

end Prog.ReadOnly

/-- Invariant of every schedule: the writer keeps off everything allocated at the start, so the reader proceeds as it would in
the original memory; the writer proceeds as it would alone. -/
theorem duo_inv {h0 : Heap D} (hk : h0.Ok) {QR : α → Heap D → Prop} {QW : β → Heap D → Prop} (R : Prog D α) (W : Prog D β)
    (sched : List Bool) (s : Duo D α β) (n : Nat) (ro : s.reader.ReadOnly)
    (hr : wp (fun _ => False) s.reader QR h0) (hw : wp (fun a => h0.next ≤ a) s.writer QW s.heap)
    (hn : h0.next ≤ s.heap.next) (hm : ∀ a, a < h0.next → s.heap.mem a = h0.mem a)
    (er : s.reader.run h0 = R.run h0) (ew : s.writer.run s.heap = W.run h0) (el : s.reader.left h0 ≤ R.left h0 - n) :
    (s.exec sched).reader.run h0 = R.run h0 ∧ (s.exec sched).writer.run (s.exec sched).heap = W.run h0 ∧
      (s.exec sched).reader.left h0 ≤ R.left h0 - (n + sched.count true) ∧
      wp (fun _ => False) (s.exec sched).reader QR h0 ∧ wp (fun a => h0.next ≤ a) (s.exec sched).writer QW (s.exec sched).heap ∧
      ∀ a, a < h0.next → (s.exec sched).heap.mem a = h0.mem a := by
  induction sched generalizing s n with
  | nil => exact ⟨er, ew, by simp only [List.count_nil, Nat.add_zero]; exact el, hr, hw, hm⟩
  | cons b bs ih =>
    obtain ⟨r, w, h⟩ := s
    simp only at hr hw hn hm ro er ew el
    cases b with
    | true =>
      have ec : n + List.count true (true :: bs) = (n + 1) + List.count true bs := by simp; omega
      rw [ec]
      simp only [Duo.exec, Duo.step]
      cases r with
      | ret x => exact ih ⟨.ret x, w, h⟩ (n + 1) ro hr hw hn hm er ew (by simp [Prog.left])
      | stop e => exact hr.elim
      | read a k =>
        obtain ⟨c, h1, h2⟩ := hr
        have := hm a (hk.lt h1)
        simp only [Prog.step, this, h1]
        simp only [Prog.run, h1] at er
        simp only [Prog.left, h1] at el
        exact ih ⟨k c, w, h⟩ (n + 1) (ro c) h2 hw hn hm er ew (by simp only; omega)
      | write a c k => exact hr.1.elim
      | alloc c k => exact ro.elim
    | false =>
      have ec : n + List.count true (false :: bs) = n + List.count true bs := by simp
      rw [ec]
      simp only [Duo.exec, Duo.step]
      cases w with
      | ret x => exact ih ⟨r, .ret x, h⟩ n ro hr hw hn hm er ew el
      | stop e => exact hw.elim
      | read a k =>
        obtain ⟨c, h1, h2⟩ := hw
        simp only [Prog.step, h1]
        simp only [Prog.run, h1] at ew
        exact ih ⟨r, k c, h⟩ n ro hr h2 hn hm er ew el
      | write a c k =>
        obtain ⟨h1, _, h2⟩ := hw
        simp only [Prog.step]
        refine ih ⟨r, k, h.put a c⟩ n ro hr h2 hn (fun b hb => ?_) er ew el
        rw [Heap.mem_put, if_neg (by omega)]; exact hm b hb
      | alloc c k =>
        simp only [Prog.step]
        refine ih ⟨r, k h.next, h.push c⟩ n ro hr hw (by simp; omega) (fun b hb => ?_) er ew el
        rw [Heap.mem_push, if_neg (by omega)]; exact hm b hb

/-- Every schedule of a read-only thread and a copy-on-write thread: the reader never fails, has ended when it had enough
turns, and ends with the answer of a run alone on the memory of the start; the writer ends with the result and memory of a
run alone. -/
theorem duo_result {h0 : Heap D} (hk : h0.Ok) {QR : α → Heap D → Prop} {QW : β → Heap D → Prop} (R : Prog D α) (W : Prog D β)
    (ro : R.ReadOnly) (hr : wp (fun _ => False) R QR h0) (hw : wp (fun a => h0.next ≤ a) W QW h0) (sched : List Bool) :
    (∀ e, ((Duo.mk R W h0).exec sched).reader ≠ .stop e) ∧
    (∀ x, ((Duo.mk R W h0).exec sched).reader = .ret x → ∃ h', R.run h0 = .ok (x, h') ∧ QR x h') ∧
    (R.left h0 ≤ sched.count true → ∃ x, ((Duo.mk R W h0).exec sched).reader = .ret x) ∧
    (∀ e, ((Duo.mk R W h0).exec sched).writer ≠ .stop e) ∧
    (∀ y, ((Duo.mk R W h0).exec sched).writer = .ret y → W.run h0 = .ok (y, ((Duo.mk R W h0).exec sched).heap)) := by
  obtain ⟨a, b, c, d, e, f⟩ := duo_inv hk R W sched ⟨R, W, h0⟩ 0 ro hr hw (Nat.le_refl _) (fun _ _ => rfl) rfl rfl (Nat.le_refl _)
  refine ⟨?_, ?_, ?_, ?_, ?_⟩
  · intro x hx; rw [hx] at d; exact d
  · intro x hx; rw [hx] at a d; exact ⟨h0, a.symm, d⟩
  · intro hc
    cases hx : ((Duo.mk R W h0).exec sched).reader with
    | ret x => exact ⟨x, rfl⟩
    | stop e => rw [hx] at d; exact d.elim
    | read a k =>
      rw [hx] at c d
      obtain ⟨cc, h1, h2⟩ := d
      simp only [Prog.left, h1] at c; omega
    | write a cc k => rw [hx] at d; exact d.1.elim
    | alloc cc k => rw [hx] at c; simp only [Prog.left] at c; omega
  · intro x hx; rw [hx] at e; exact e
  · intro y hy; rw [hy] at b; exact b.symm

end Verif.Heap
