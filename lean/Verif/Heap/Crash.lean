import Verif.Heap.Lift

/-!
# What a panicking call leaves behind

In Go a panic that is recovered higher up leaves the memory as the call had it at that moment.
-/

namespace Verif.Heap
variable {D α β : Type}

namespace Prog

/-- The error a failing execution ends with and the memory it leaves. -/
def crash : Prog D α → Heap D → Option (Err × Heap D)
  | ret _, _ => none
  | stop e, h => some (e, h)
  | read a k, h =>
    match h.mem a with
    | some c => (k c).crash h
    | none => some (.panic, h)
  | write a c k, h => k.crash (h.put a c)
  | alloc c k, h => (k h.next).crash (h.push c)

/-- A failing execution is one that `run` reports as such. -/
theorem crash_run (p : Prog D α) (h : Heap D) (e : Err) : p.run h = .error e ↔ ∃ h', p.crash h = some (e, h') := by
  induction p generalizing h with
  | ret x => simp [run, crash]
  | stop e' => simp [run, crash]
  | read a k ih =>
    simp only [run, crash]
    cases h.mem a with
    | none => simp
    | some c => exact ih c h
  | write a c k ih => exact ih _
  | alloc c k ih => exact ih _ _

/-- The program panics, has written only to allocated addresses in `W` by then, and leaves a memory satisfying `Q`. -/
def pan (W : Addr → Prop) : Prog D α → (Heap D → Prop) → Heap D → Prop
  | ret _, _, _ => False
  | stop e, Q, h => e = .panic ∧ Q h
  | read a k, Q, h => ∃ c, h.mem a = some c ∧ (k c).pan W Q h
  | write a c k, Q, h => W a ∧ (∃ c0, h.mem a = some c0) ∧ k.pan W Q (h.put a c)
  | alloc c k, Q, h => (k h.next).pan W Q (h.push c)

theorem pan_left {W : Addr → Prop} {p : Prog D α} {k : α → Prog D β} {Q : Heap D → Prop} {h : Heap D} (hp : pan W p Q h) : pan W (p >>= k) Q h := by
  change pan W (p.bind k) Q h
  induction p generalizing h with
  | ret x => exact hp.elim
  | stop e => exact hp
  | read a k ih => obtain ⟨c, h1, h2⟩ := hp; exact ⟨c, h1, ih c h2⟩
  | write a c k ih => exact ⟨hp.1, hp.2.1, ih hp.2.2⟩
  | alloc c k ih => exact ih _ hp

theorem pan_bind {W : Addr → Prop} {p : Prog D α} {k : α → Prog D β} {Q : Heap D → Prop} {h : Heap D}
    (hp : wp W p (fun x h' => pan W (k x) Q h') h) : pan W (p >>= k) Q h := by
  change pan W (p.bind k) Q h
  induction p generalizing h with
  | ret x => exact hp
  | stop e => exact hp.elim
  | read a k ih => obtain ⟨c, h1, h2⟩ := hp; exact ⟨c, h1, ih c h2⟩
  | write a c k ih => exact ⟨hp.1, hp.2.1, ih hp.2.2⟩
  | alloc c k ih => exact ih _ hp

theorem pan_mono {W W' : Addr → Prop} {p : Prog D α} {Q Q' : Heap D → Prop} {h : Heap D} (hw : ∀ a, W a → W' a)
    (hq : ∀ h, Q h → Q' h) (hp : pan W p Q h) : pan W' p Q' h := by
  induction p generalizing h with
  | ret x => exact hp
  | stop e => exact ⟨hp.1, hq _ hp.2⟩
  | read a k ih => obtain ⟨c, h1, h2⟩ := hp; exact ⟨c, h1, ih _ h2⟩
  | write a c k ih => exact ⟨hw _ hp.1, hp.2.1, ih hp.2.2⟩
  | alloc c k ih => exact ih _ hp

/-- What `pan` means for an execution. -/
theorem pan_crash {W : Addr → Prop} {p : Prog D α} {Q : Heap D → Prop} {h : Heap D} (hp : pan W p Q h) :
    ∃ h', p.crash h = some (.panic, h') ∧ Q h' ∧ h.next ≤ h'.next ∧ ∀ a, a < h.next → ¬ W a → h'.mem a = h.mem a := by
  induction p generalizing h with
  | ret x => exact hp.elim
  | stop e => obtain ⟨rfl, hq⟩ := hp; exact ⟨h, rfl, hq, Nat.le_refl _, fun _ _ _ => rfl⟩
  | read a k ih =>
    obtain ⟨c, h1, h2⟩ := hp
    obtain ⟨h', r1, r2⟩ := ih _ h2
    exact ⟨h', by simp only [crash, h1]; exact r1, r2⟩
  | write a c k ih =>
    obtain ⟨h', r1, r2, r3, r4⟩ := ih hp.2.2
    refine ⟨h', r1, r2, r3, fun b hb hW => ?_⟩
    rw [r4 b hb hW]
    have : b ≠ a := by rintro rfl; exact hW hp.1
    simp [Heap.put, this]
  | alloc c k ih =>
    obtain ⟨h', r1, r2, r3, r4⟩ := ih _ hp
    refine ⟨h', r1, r2, by simp [Heap.push] at r3; omega, fun b hb hW => ?_⟩
    rw [r4 b (by simp [Heap.push]; omega) hW]
    have : b ≠ h.next := by omega
    simp [Heap.push, this]

end Prog
end Verif.Heap
