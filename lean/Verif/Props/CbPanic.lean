import Verif.IPHeap.Recover
import Verif.Props.IptreeUpdateHeap

/-!
# Property C85: a callback of UpdateDescendants that panics

`cb` gives `none` where the callback panics; otherwise it answers from the calls it got so far in this update, the key and the value.
-/

namespace Verif.Props
open Verif Verif.Heap Verif.Heap.Prog Verif.IP Verif.IPHeap
variable {V : Type} [Inhabited V]

/-- C85: after any legal history, UpdateDescendants on an exclusively held tree and a network the tree lists.  The call panics iff the callback does; the networks
it was called for before have the values it asked for, the one it panicked on and all others are as before (`updateUntil`); all other held trees answer every query
as before. -/
theorem C85_update {f : Nat} (hf : 66 ≤ f) (ops : List (SOp (UOp V)))
    (hl : (Book.init : Book (UOp V)).LegalAll2 (fun _ o => isCall o) (uInpOk true) ops) (i : Nat)
    (hi : ∀ (v : Nat × List (UOp V)), (Book.init.exec ops).vs[i]? = some v → ∀ (j : Nat) u, j ≠ i → (Book.init.exec ops).vs[j]? = some u → u.1 ≠ v.1)
    (cb : List (IPNet × V) → IPNet → V → Option (V × Bool)) {n : IPNet} {g : Fam} {p : List Bool} (hn : IsNet n g p) :
    ∃ s, OStore.init.exec (ipuImpl true f) ops = .ok s ∧ ∀ r, s.roots[i]? = some r →
      ∃ l : List (IPNet × V), answer (EnumerateTreeP f r) s.heap = some (l.map fun p => (p.1, .user p.2)) ∧
        ((∃ x ∈ l, IsCanonNet x.1 g p) → ∃ h',
          (UpdateDescendantsX f (loggedX cb) r (some n) []).runH s.heap = ((match (updateUntil cb g p l []).2 with
            | some log => .ok log
            | none => .error .panic), h') ∧
          answer (EnumerateTreeP f r) h' = some ((updateUntil cb g p l []).1.map fun p => (p.1, .user p.2)) ∧
          ∀ (j : Nat) q, j ≠ i → s.roots[j]? = some q →
            (∀ n, answer (GetByNetP f q n) h' = answer (GetByNetP f q n) s.heap) ∧ answer (EnumerateTreeP f q) h' = answer (EnumerateTreeP f q) s.heap) := by
  obtain ⟨s, e, h⟩ := C60_update hf ops hl i hi (logged (quiet cb)) hn []
  refine ⟨s, e, fun r hr => ?_⟩
  obtain ⟨l, h1, h2⟩ := h r hr
  refine ⟨l, h1, fun hx => ?_⟩
  obtain ⟨h', _, e1, e2, _, _, e3⟩ := h2 hx
  obtain ⟨q1, q2⟩ := updateBelow_quiet (cb := cb) g p l [] rfl
  refine ⟨h', ?_, by rw [← q1]; exact e2, e3⟩
  rcases (update_follows (quiets cb) f r (some n) (by simp [panicked, panickedAt])).run e1 with ⟨d, e4⟩ | ⟨d, e4⟩
  · rcases q2 with ⟨q3, _⟩ | ⟨_, q3⟩
    · exact absurd q3 d
    · rw [e4, q3]
  · rcases q2 with ⟨_, q3⟩ | ⟨q3, _⟩
    · rw [e4, q3]
    · rw [q3] at d; cases d

/-- C85: the client may recover and go on with the tree.  In every legal history where callbacks may panic every held tree shows the networks its own chain of calls
stands for, where a call whose callback panics stands for an update with the callback that asks for no change from the panic on (`quiet`). -/
theorem C85_history (st : Bool) {f : Nat} (hf : 66 ≤ f) (ops : List (SOp (PanOp V)))
    (hl : (Book.init : Book (UOp V)).LegalAll2 (fun _ o => isCall o) (uInpOk st) (ops.map stepAmounts)) :
    ∃ s, execR st f OStore.init ops = .ok s ∧ s.roots.length = (Book.init.exec (ops.map stepAmounts)).vs.length ∧
      ∀ (i : Nat) r v, s.roots[i]? = some r → (Book.init.exec (ops.map stepAmounts)).vs[i]? = some v → UpdObserves f s.heap r v.2 := by
  obtain ⟨s, e, h⟩ := C60_history st hf (ops.map stepAmounts) hl
  exact ⟨s, execR_ok e, h⟩

omit [Inhabited V] in
/-- C85: what the quiet callback does to a listing is what the panicking one does up to the panic. -/
theorem C85_quiet (cb : List (IPNet × V) → IPNet → V → Option (V × Bool)) (g : Fam) (p : List Bool) (l : List (IPNet × V)) :
    (updateBelow (logged (quiet cb)) g p l []).1 = (updateUntil cb g p l []).1 := (updateBelow_quiet g p l [] rfl).1

/-! ## A concrete case -/

/-- Adds 10 to two values and panics at the third call. -/
def thirdPanics (s : List (IPNet × Nat)) (_ : IPNet) (v : Nat) : Option (Nat × Bool) := if s.length < 2 then some (v + 10, true) else none

/-- Four networks below 10.0.0.0/8, then the update, then another insertion in place. -/
def panicSample : List (SOp (PanOp Nat)) :=
  [.fresh, .inp 0 (.call (.insertNet (some (net4 10 0 0 0 8)) 1)), .inp 0 (.call (.insertNet (some (net4 10 1 0 0 16)) 2)),
   .inp 0 (.call (.insertNet (some (net4 10 2 0 0 16)) 3)), .inp 0 (.call (.insertNet (some (net4 10 3 0 0 16)) 4)),
   .inp 0 (.call (.insertNet (some (net4 10 4 0 0 16)) 5)), .inp 0 (.update (net4 10 0 0 0 8) thirdPanics),
   .inp 0 (.call (.insertNet (some (net4 10 5 0 0 16)) 6))]

example : (match execR true 66 OStore.init panicSample with
    | .ok s => s.roots.map fun r => (answer (EnumerateTreeP 66 r) s.heap).map fun l => l.map fun x => (x.1.ip.map UInt8.toNat, match x.2 with | .user v => v | .sub _ => 0)
    | .error _ => []) = [some [([10, 0, 0, 0], 1), ([10, 1, 0, 0], 12), ([10, 2, 0, 0], 13), ([10, 3, 0, 0], 4), ([10, 4, 0, 0], 5), ([10, 5, 0, 0], 6)]] := by decide +kernel

theorem isNet8 : IsNet (net4 10 0 0 0 8) .v4 [false, false, false, false, true, false, true, false] := ⟨rfl, rfl, by decide, by decide +kernel, by decide +kernel⟩

/-- The sample meets the hypotheses. -/
example : (Book.init : Book (UOp Nat)).LegalAll2 (fun _ o => isCall o) (uInpOk true) (panicSample.map stepAmounts) := by
  refine ⟨trivial, ?_, ?_, ?_, ?_, ?_, ?_, ?_, trivial⟩
  all_goals
    intro v hv
    simp [Book.init, Book.step, stepAmounts] at hv
    subst hv
    refine ⟨⟨rfl, ?_⟩, fun j u hj hu => ?_⟩
    case refine_2 =>
      simp [Book.init, Book.step, stepAmounts] at hu
      rcases j with _ | j <;> simp at hu hj
  all_goals first
    | trivial
    | exact fun M g q hM hq hz => .inl (IsNet.unique isNet8 hq).1.symm

end Verif.Props
