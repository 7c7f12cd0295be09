import Verif.IPHeap.CbPanic
import Verif.Spec.Until

/-! # Histories of iptree calls where callbacks of `UpdateDescendants` may panic and the client recovers -/

namespace Verif.IPHeap
open Verif Verif.Heap Verif.Heap.Prog Verif.Num Verif.NumHeap Verif.IP

variable {V : Type}

/-- A callback with the log of its calls. -/
def loggedX (cb : List (IPNet × V) → IPNet → V → Option (V × Bool)) (s : List (IPNet × V)) (k : IPNet) (v : V) : Option ((V × Bool) × List (IPNet × V)) :=
  (cb s k v).map fun r => (r, s ++ [(k, v)])

/-- Whether one of the logged calls panics; `pre` are the calls before. -/
def panickedAt (cb : List (IPNet × V) → IPNet → V → Option (V × Bool)) (pre : List (IPNet × V)) : List (IPNet × V) → Bool
  | [] => false
  | x :: xs => (cb pre x.1 x.2).isNone || panickedAt cb (pre ++ [x]) xs

/-- Whether one of the logged calls panics. -/
def panicked (cb : List (IPNet × V) → IPNet → V → Option (V × Bool)) (s : List (IPNet × V)) : Bool := panickedAt cb [] s

/-- The callback that answers like `cb` up to the first panic and asks for no change from then on. -/
def quiet (cb : List (IPNet × V) → IPNet → V → Option (V × Bool)) (s : List (IPNet × V)) (k : IPNet) (v : V) : V × Bool :=
  if panicked cb s then (v, false) else (cb s k v).getD (v, false)

variable {cb : List (IPNet × V) → IPNet → V → Option (V × Bool)}

theorem panickedAt_append (pre s t : List (IPNet × V)) : panickedAt cb pre (s ++ t) = (panickedAt cb pre s || panickedAt cb (pre ++ s) t) := by
  induction s generalizing pre with
  | nil => simp [panickedAt]
  | cons x s ih => simp [panickedAt, ih, Bool.or_assoc]

theorem panicked_snoc (s : List (IPNet × V)) (k : IPNet) (v : V) : panicked cb (s ++ [(k, v)]) = (panicked cb s || (cb s k v).isNone) := by
  simp [panicked, panickedAt_append, panickedAt]

theorem quiets (cb : List (IPNet × V) → IPNet → V → Option (V × Bool)) : Quiets (fun s => panicked cb s = true) (logged (quiet cb)) (loggedX cb) where
  live s k v r hs e := by
    cases e1 : cb s k v with
    | none => simp [loggedX, e1] at e
    | some x =>
      simp only [loggedX, e1, Option.map_some, Option.some.injEq] at e
      subst e
      exact ⟨by simp [logged, quiet, hs, e1], by simpa [panicked_snoc, e1] using hs⟩
  ends s k v hs e := by
    have e1 : cb s k v = none := by simpa [loggedX] using e
    exact ⟨by simp [logged, quiet, hs, e1], by simp [logged, panicked_snoc, e1]⟩
  rest s k v hs := ⟨by simp [logged, quiet, hs], by simp [logged, panicked_snoc, hs]⟩

theorem updateBelow_dead (f : Fam) (p : List Bool) (l : List (IPNet × V)) (s : List (IPNet × V)) (hs : panicked cb s = true) :
    (updateBelow (logged (quiet cb)) f p l s).1 = l ∧ panicked cb (updateBelow (logged (quiet cb)) f p l s).2 = true := by
  induction l generalizing s with
  | nil => exact ⟨rfl, hs⟩
  | cons x l ih =>
    obtain ⟨k, v⟩ := x
    unfold updateBelow
    split
    · obtain ⟨h1, h2⟩ := ih (s ++ [(k, v)]) (by simp [panicked_snoc, hs])
      refine ⟨?_, h2⟩
      simp only [logged, quiet, hs, if_true]
      exact congrArg _ h1
    · obtain ⟨h1, h2⟩ := ih s hs
      exact ⟨congrArg _ h1, h2⟩

/-- Updating with the quiet callback is updating up to the panic. -/
theorem updateBelow_quiet (f : Fam) (p : List Bool) (l : List (IPNet × V)) (s : List (IPNet × V)) (hs : panicked cb s = false) :
    (updateBelow (logged (quiet cb)) f p l s).1 = (updateUntil cb f p l s).1 ∧
    (panicked cb (updateBelow (logged (quiet cb)) f p l s).2 = true ∧ (updateUntil cb f p l s).2 = none ∨
      panicked cb (updateBelow (logged (quiet cb)) f p l s).2 = false ∧ (updateUntil cb f p l s).2 = some (updateBelow (logged (quiet cb)) f p l s).2) := by
  induction l generalizing s with
  | nil => exact ⟨rfl, .inr ⟨hs, rfl⟩⟩
  | cons x l ih =>
    obtain ⟨k, v⟩ := x
    unfold updateBelow updateUntil
    split
    · cases e : cb s k v with
      | none =>
        obtain ⟨h1, h2⟩ := updateBelow_dead (cb := cb) f p l (s ++ [(k, v)]) (by simp [panicked_snoc, e])
        have e0 : logged (quiet cb) s k v = ((v, false), s ++ [(k, v)]) := by simp [logged, quiet, hs, e]
        simp only [e0]
        exact ⟨by simp [h1], .inl ⟨h2, trivial⟩⟩
      | some r =>
        obtain ⟨h1, h2⟩ := ih (s ++ [(k, v)]) (by simp [panicked_snoc, hs, e])
        have e0 : logged (quiet cb) s k v = (r, s ++ [(k, v)]) := by simp [logged, quiet, hs, e]
        simp only [e0]
        exact ⟨by simp [h1], h2⟩
    · obtain ⟨h1, h2⟩ := ih s hs
      exact ⟨congrArg _ h1, h2⟩

/-! ## Histories -/

/-- One call; the callback of an update may panic (`none`). -/
inductive PanOp (V : Type) where
  | call (o : Op V)
  | update (n : IPNet) (cb : List (IPNet × V) → IPNet → V → Option (V × Bool))

/-- What the call amounts to. -/
def PanOp.amounts : PanOp V → UOp V
  | .call o => .call o
  | .update n cb => .update n (quiet cb)

/-- What a step of the client amounts to. -/
def stepAmounts : SOp (PanOp V) → SOp (UOp V)
  | .fresh => .fresh
  | .cow i o => .cow i o.amounts
  | .inp i o => .inp i o.amounts
  | .drop i => .drop i

variable [Inhabited V]

/-- One step of a client that recovers from panics of `UpdateDescendants` and keeps the tree. -/
def stepR (st : Bool) (f : Nat) (s : OStore (IPD V) Ptr) : SOp (PanOp V) → Except Err (OStore (IPD V) Ptr)
  | .inp i (.update n cb) =>
    match s.roots[i]? with
    | none => .ok s
    | some r =>
      match (UpdateDescendantsX f (loggedX cb) r (some n) []).runH s.heap with
      | (.error .fuel, _) => .error .fuel
      | (_, h) => .ok ⟨h, s.roots.set i r⟩
  | op => s.step (ipuImpl st f) (stepAmounts op)

/-- A history, oldest step first. -/
def execR (st : Bool) (f : Nat) (s : OStore (IPD V) Ptr) : List (SOp (PanOp V)) → Except Err (OStore (IPD V) Ptr)
  | [] => .ok s
  | op :: ops => match stepR st f s op with
    | .ok s' => execR st f s' ops
    | .error e => .error e

omit [Inhabited V] in
theorem run_bind_eq {D α β : Type} (p : Prog D α) (k : α → Prog D β) (h : Heap D) : (p.bind k).run h = match p.run h with
    | .ok (x, h') => (k x).run h'
    | .error e => .error e := by
  induction p generalizing h with
  | ret x => rfl
  | stop e => rfl
  | read a q ih =>
    simp only [Prog.bind, Prog.run]
    cases h.mem a with
    | none => rfl
    | some c => exact ih c h
  | write a c q ih => exact ih _
  | alloc c q ih => exact ih _ _

theorem stepR_ok {st : Bool} {f : Nat} {s s' : OStore (IPD V) Ptr} {op : SOp (PanOp V)} (e : s.step (ipuImpl st f) (stepAmounts op) = .ok s') : stepR st f s op = .ok s' := by
  cases op with
  | fresh => exact e
  | cow i o => exact e
  | drop i => exact e
  | inp i o =>
    cases o with
    | call o => exact e
    | update n cb =>
      simp only [stepAmounts, PanOp.amounts, OStore.step] at e
      simp only [stepR]
      cases hr : s.roots[i]? with
      | none => simpa [hr] using e
      | some r =>
        simp only [hr] at e ⊢
        have e1 : (ipuImpl st f).inp (.update n (quiet cb)) r = (UpdateDescendantsP f (logged (quiet cb)) r (some n) []).bind fun _ => pure r := rfl
        rw [e1, run_bind_eq] at e
        rcases e2 : (UpdateDescendantsP f (logged (quiet cb)) r (some n) []).run s.heap with x | ⟨l, h⟩
        · simp [e2] at e
        · simp only [e2, Prog.run, pure] at e
          rcases (update_follows (quiets cb) f r (some n) (by simp [panicked, panickedAt])).run e2 with ⟨_, e3⟩ | ⟨_, e3⟩
          · simp only [e3]; exact e
          · simp only [e3]; exact e

theorem execR_ok {st : Bool} {f : Nat} {ops : List (SOp (PanOp V))} {s s' : OStore (IPD V) Ptr} (e : s.exec (ipuImpl st f) (ops.map stepAmounts) = .ok s') :
    execR st f s ops = .ok s' := by
  induction ops generalizing s with
  | nil => exact e
  | cons op ops ih =>
    simp only [List.map_cons, OStore.exec] at e
    cases e1 : s.step (ipuImpl st f) (stepAmounts op) with
    | error x => simp [e1] at e
    | ok s1 =>
      simp only [e1] at e
      simp only [execR, stepR_ok e1]
      exact ih e

end Verif.IPHeap
