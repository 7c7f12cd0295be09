import Verif.DL.Model
import Verif.Domain.Labels
import Verif.RB.History

namespace Verif.DL
open Verif.RB Verif.Domain Verif.DomainText
variable {V : Type}

theorem cmpLabel_eq_zero {a b : Bytes} : cmpLabel a b = 0 ↔ a = b := by
  unfold cmpLabel
  split
  · exact compareBytes_eq_zero
  · rename_i h
    constructor
    · intro h'; exact absurd h' h
    · rintro rfl; simp at h

theorem cmpLabel_lt {a b : Bytes} : cmpLabel a b < 0 ↔ a.length < b.length ∨ (a.length = b.length ∧ a < b) := by
  unfold cmpLabel
  split
  · rw [compareBytes_lt_iff]
    constructor
    · intro h'; exact .inr ⟨by omega, h'⟩
    · rintro (h' | h')
      · omega
      · exact h'.2
  · constructor
    · intro h; left; omega
    · rintro (h | h) <;> omega

theorem cmpLabel_lawful : LawfulCmp cmpLabel where
  swap a b := by
    have h1 := compareBytes_lawful.swap a b
    unfold cmpLabel
    by_cases h : a.length = b.length
    · simp [h]; exact h1
    · have : ¬ ((a.length : Int) - b.length = 0) := by omega
      have : ¬ ((b.length : Int) - a.length = 0) := by omega
      simp [*]; omega
  trans a b c h1 h2 := by
    unfold cmpLabel at *
    by_cases hab : a.length = b.length
    · by_cases hbc : b.length = c.length
      · simp [hab, hbc] at *
        exact compareBytes_lawful.trans a b c h1 h2
      · have : ¬ ((b.length : Int) - c.length = 0) := by omega
        rw [if_neg this] at h2
        rw [if_neg (by omega)]; omega
    · have : ¬ ((a.length : Int) - b.length = 0) := by omega
      rw [if_neg this] at h1
      have h3 : b.length ≤ c.length := by
        split at h2 <;> omega
      rw [if_neg (by omega)]; omega

theorem lastWriteBy_label (ops : List (KOp Bytes V)) (q : Bytes) : lastWriteBy cmpLabel ops q = lastWrite' ops q := by
  induction ops with
  | nil => rfl
  | cons op ops ih =>
    cases op <;> simp only [lastWriteBy, lastWrite', cmpLabel_eq_zero, ih]

/-- What a call does in terms of binary labels; `none` if it panics. -/
def Op.abs : Op V → Option (KOp Bytes V)
  | .insert k v => (labelOf k).map (.insert · v)
  | .rawInsert k v => some (.insert k v)
  | .delete k => (labelOf k).map .delete
  | .rawDelete k => some (.delete k)

/-- The whole history in those terms. -/
def absOps : List (Op V) → Option (List (KOp Bytes V))
  | [] => some []
  | op :: ops => match op.abs, absOps ops with
    | some a, some as => some (a :: as)
    | _, _ => none

theorem rawGet_eq (t : Option (Tree V)) (q : Bytes) : RawGet t q = RB.get cmpLabel (rootOf t) q := by
  cases t <;> rfl

theorem rawDelete_eq (t : Option (Tree V)) (q : Bytes) :
    rootOf (RawDelete t q).1 = (RB.del cmpLabel (rootOf t) q).1 ∧ (RawDelete t q).2 = (RB.del cmpLabel (rootOf t) q).2 := by
  cases t
  · exact ⟨rfl, rfl⟩
  · exact ⟨rfl, rfl⟩

theorem run_like [Inhabited V] {t0 : Option (Tree V)} (h0 : rootOf t0 = .nil) (ops : List (Op V)) {as : List (KOp Bytes V)}
    (ha : absOps ops = some as) :
    ∃ t r, run t0 ops = some t ∧ RB.run cmpLabel as = some r ∧ rootOf t = r ∧ Balanced r := by
  induction ops generalizing as with
  | nil => cases ha; exact ⟨t0, .nil, rfl, rfl, h0, balanced_nil⟩
  | cons op ops ih =>
    simp only [absOps] at ha
    cases hop : op.abs with
    | none => simp [hop] at ha
    | some a =>
      cases hops : absOps ops with
      | none => simp [hop, hops] at ha
      | some as' =>
        simp only [hop, hops, Option.some.injEq] at ha
        subst ha
        obtain ⟨t, r, h1, h2, rfl, h4⟩ := ih hops
        have hraw : ∀ k v, op.abs = some (.insert k v) → step t op = RawInsert t k v → ∃ t' r', run t0 (op :: ops) = some t' ∧
            RB.run cmpLabel (.insert k v :: as') = some r' ∧ rootOf t' = r' ∧ Balanced r' := by
          intro k v _ hs
          obtain ⟨r', h5, h6⟩ := insert_balanced (cmp := cmpLabel) h4 k v (cmpLabel_lawful.refl k)
          exact ⟨some ⟨r'⟩, r', by simp [run, h1, hs, RawInsert, h5], by simp [RB.run, h2, h5], rfl, h6⟩
        have hdel : ∀ k, op.abs = some (.delete k) → step t op = some (RawDelete t k).1 → ∃ t' r', run t0 (op :: ops) = some t' ∧
            RB.run cmpLabel (.delete k :: as') = some r' ∧ rootOf t' = r' ∧ Balanced r' := by
          intro k _ hs
          exact ⟨(RawDelete t k).1, _, by simp [run, h1, hs], by simp [RB.run, h2], (rawDelete_eq t k).1,
            del_balanced (cmp := cmpLabel) h4 k⟩
        cases op with
        | insert k v =>
          simp only [Op.abs] at hop
          cases hl : labelOf k with
          | none => simp [hl] at hop
          | some dl =>
            simp only [hl, Option.map_some, Option.some.injEq] at hop
            subst hop
            exact hraw dl v (by simp [Op.abs, hl]) (by simp [step, Insert, hl])
        | rawInsert k v => cases hop; exact hraw k v rfl rfl
        | delete k =>
          simp only [Op.abs] at hop
          cases hl : labelOf k with
          | none => simp [hl] at hop
          | some dl =>
            simp only [hl, Option.map_some, Option.some.injEq] at hop
            subst hop
            refine hdel dl (by simp [Op.abs, hl]) ?_
            cases t <;> simp [step, Delete, hl, RawDelete]
        | rawDelete k => cases hop; exact hdel k rfl rfl

theorem get_eq {t : Option (Tree V)} {s l : Bytes} (h : labelOf s = some l) : Get t s = some (RawGet t l) := by
  cases t <;> simp [Get, h, RawGet]

/-- Listing with human-readable keys when no key is longer than 63 bytes. -/
theorem enumerateN_short (r : RTree Bytes V) (h : ∀ p ∈ RB.enumerate r, p.1.length ≤ 63) :
    enumerateN r = some ((RB.enumerate r).map fun p => (labelText (p.1.map tokOf), p.2)) := by
  induction r with
  | nil => rfl
  | node d l r ihl ihr =>
    simp only [RB.enumerate, List.mem_append, List.mem_cons] at h
    have h1 := ihl (fun p hp => h p (.inl hp))
    have h2 := ihr (fun p hp => h p (.inr (.inr hp)))
    have h3 : MakeHumanReadableLabel d.key = some (labelText (d.key.map tokOf)) := by
      have := human_short d.key [] 0 (by simp) (by have := h (d.key, d.value) (.inr (.inl rfl)); simpa using this)
      simpa [MakeHumanReadableLabel] using this
    simp only [enumerateN, h1, h2, h3, RB.enumerate, List.map_append, List.map_cons]

end Verif.DL
