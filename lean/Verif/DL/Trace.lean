import Verif.DL.Model

/-! # dltree Enumerate up to a panic -/

namespace Verif.DL
open Verif Verif.RB Verif.Domain
variable {V : Type}

/-- dltree/node.go:308-318 `enumerate`: the pairs sent, and whether it came to its end without a panic of `MakeHumanReadableLabel`.  The
panic is in the goroutine of `Enumerate`, which nothing recovers: it ends the program. -/
def traceN : RTree Bytes V → List (Bytes × V) × Bool
  | .nil => ([], true)
  | .node d l r =>
    match traceN l with
    | (a, false) => (a, false)
    | (a, true) =>
      match MakeHumanReadableLabel d.key with
      | none => (a, false)
      | some k => (a ++ (k, d.value) :: (traceN r).1, (traceN r).2)

/-- dltree/dltree.go:79-94 `Enumerate`. -/
def EnumerateTrace (t : Option (Tree V)) : List (Bytes × V) × Bool := traceN (rootOf t)

/-- Send the pairs of a list until a key cannot be printed. -/
def sendAll : List (Bytes × V) → List (Bytes × V) × Bool
  | [] => ([], true)
  | p :: ps =>
    match MakeHumanReadableLabel p.1 with
    | none => ([], false)
    | some k => ((k, p.2) :: (sendAll ps).1, (sendAll ps).2)

theorem sendAll_append (a b : List (Bytes × V)) :
    sendAll (a ++ b) = if (sendAll a).2 then ((sendAll a).1 ++ (sendAll b).1, (sendAll b).2) else sendAll a := by
  induction a with
  | nil => simp [sendAll]
  | cons p a ih =>
    rcases Option.eq_none_or_eq_some (MakeHumanReadableLabel p.1) with hk | ⟨k, hk⟩
    · simp [sendAll, hk]
    · by_cases h : (sendAll a).2 = true <;> simp [sendAll, hk, h, ih]

theorem traceN_eq (t : RTree Bytes V) : traceN t = sendAll (RB.enumerate t) := by
  induction t with
  | nil => rfl
  | node d l r ihl ihr =>
    simp only [traceN, RB.enumerate, sendAll_append, ← ihl]
    cases h : traceN l with
    | mk a ok =>
      cases ok with
      | false => simp
      | true =>
        rcases Option.eq_none_or_eq_some (MakeHumanReadableLabel d.key) with hk | ⟨k, hk⟩ <;> simp [sendAll, hk, ← ihr]

theorem sendAll_split (ps : List (Bytes × V)) :
    ∃ pre rest, ps = pre ++ rest ∧ (sendAll ps).1.length = pre.length ∧
      (∀ (i : Nat) (p q : Bytes × V), pre[i]? = some p → (sendAll ps).1[i]? = some q → MakeHumanReadableLabel p.1 = some q.1 ∧ p.2 = q.2) ∧
      (((sendAll ps).2 = true ∧ rest = []) ∨ ((sendAll ps).2 = false ∧ ∃ bad tl, rest = bad :: tl ∧ MakeHumanReadableLabel bad.1 = none)) := by
  induction ps with
  | nil => exact ⟨[], [], rfl, rfl, fun i p q h => by simp at h, .inl ⟨rfl, rfl⟩⟩
  | cons p ps ih =>
    simp only [sendAll]
    cases h : MakeHumanReadableLabel p.1 with
    | none => exact ⟨[], p :: ps, rfl, rfl, fun i p q h => by simp at h, .inr ⟨rfl, p, ps, rfl, h⟩⟩
    | some k =>
      obtain ⟨pre, rest, e1, e2, e3, e4⟩ := ih
      refine ⟨p :: pre, rest, by rw [e1]; rfl, by simp [e2], ?_, e4⟩
      intro i a b ha hb
      cases i with
      | zero => simp at ha hb; subst ha; subst hb; exact ⟨h, rfl⟩
      | succ i => simp at ha hb; exact e3 i a b ha hb

theorem sendAll_ok (ps : List (Bytes × V)) : (sendAll ps).2 = true ↔ ∀ p ∈ ps, MakeHumanReadableLabel p.1 ≠ none := by
  induction ps with
  | nil => simp [sendAll]
  | cons p ps ih =>
    simp only [sendAll]
    cases h : MakeHumanReadableLabel p.1 with
    | none => simp [h]
    | some k => simp [h, ih]

theorem enumerateN_trace (t : RTree Bytes V) : enumerateN t = if (traceN t).2 then some (traceN t).1 else none := by
  induction t with
  | nil => rfl
  | node d l r ihl ihr =>
    obtain ⟨a, ok, h⟩ : ∃ a ok, traceN l = (a, ok) := ⟨_, _, rfl⟩
    simp only [h] at ihl
    cases ok with
    | false =>
      have : traceN (.node d l r) = (a, false) := by simp [traceN, h]
      rw [this]; simp [enumerateN, ihl]
    | true =>
      rcases Option.eq_none_or_eq_some (MakeHumanReadableLabel d.key) with hk | ⟨k, hk⟩
      · have : traceN (.node d l r) = (a, false) := by simp [traceN, h, hk]
        rw [this]; simp [enumerateN, ihl, hk]
      · have : traceN (.node d l r) = (a ++ (k, d.value) :: (traceN r).1, (traceN r).2) := by simp [traceN, h, hk]
        rw [this]
        by_cases hr : (traceN r).2 = true <;> simp [enumerateN, ihl, ihr, hr, hk]

end Verif.DL
