import Verif.Spec.OrdMap

/-! # Go strings as byte lists -/

namespace Verif

/-- A Go string. -/
abbrev Bytes := List UInt8

/-- `strings.Compare` of the Go standard library: lexicographic by byte, a proper prefix is smaller.
Used by strtree/strtree.go:23,39, dltree/node.go. -/
def compareBytes : Bytes → Bytes → Int
  | [], [] => 0
  | [], _ :: _ => -1
  | _ :: _, [] => 1
  | a :: as, b :: bs => if a < b then -1 else if b < a then 1 else compareBytes as bs

theorem u8_lt_irrefl (a : UInt8) : ¬ a < a := by simp

theorem compareBytes_eq_zero {a b : Bytes} : compareBytes a b = 0 ↔ a = b := by
  induction a generalizing b with
  | nil => cases b <;> simp [compareBytes]
  | cons x xs ih =>
    cases b with
    | nil => simp [compareBytes]
    | cons y ys =>
      simp only [compareBytes, List.cons.injEq]
      split
      · rename_i h; simp; intro h'; subst h'; exact absurd h (u8_lt_irrefl x)
      · split
        · rename_i h; simp; intro h'; subst h'; exact absurd h (u8_lt_irrefl x)
        · rename_i h1 h2
          rw [ih]
          have : x = y := by
            simp only [UInt8.lt_iff_toNat_lt] at h1 h2
            exact UInt8.toNat_inj.1 (by omega)
          simp [this]

theorem compareBytes_neg (a b : Bytes) : compareBytes b a = - compareBytes a b := by
  induction a generalizing b with
  | nil => cases b <;> simp [compareBytes]
  | cons x xs ih =>
    cases b with
    | nil => simp [compareBytes]
    | cons y ys =>
      simp only [compareBytes, UInt8.lt_iff_toNat_lt]
      by_cases h1 : x.toNat < y.toNat
      · have : ¬ y.toNat < x.toNat := by omega
        simp [h1, this]
      · by_cases h2 : y.toNat < x.toNat
        · simp [h1, h2]
        · simp [h1, h2, ih]

theorem compareBytes_trans {a b c : Bytes} (h1 : compareBytes a b ≤ 0) (h2 : compareBytes b c ≤ 0) : compareBytes a c ≤ 0 := by
  induction a generalizing b c with
  | nil => cases c <;> simp [compareBytes]
  | cons x xs ih =>
    cases b with
    | nil => simp [compareBytes] at h1
    | cons y ys =>
      cases c with
      | nil => simp [compareBytes] at h2
      | cons z zs =>
        simp only [compareBytes, UInt8.lt_iff_toNat_lt] at *
        by_cases a1 : x.toNat < y.toNat
        · by_cases b1 : y.toNat < z.toNat
          · have : x.toNat < z.toNat := by omega
            simp [this]
          · by_cases b2 : z.toNat < y.toNat
            · simp [b1, b2] at h2
            · have : x.toNat < z.toNat := by omega
              simp [this]
        · by_cases a2 : y.toNat < x.toNat
          · simp [a1, a2] at h1
          · simp only [a1, a2, if_false] at h1
            by_cases b1 : y.toNat < z.toNat
            · have : x.toNat < z.toNat := by omega
              simp [this]
            · by_cases b2 : z.toNat < y.toNat
              · simp [b1, b2] at h2
              · simp only [b1, b2, if_false] at h2
                have e1 : ¬ x.toNat < z.toNat := by omega
                have e2 : ¬ z.toNat < x.toNat := by omega
                simp only [e1, e2, if_false]
                exact ih h1 h2

theorem compareBytes_lawful : LawfulCmp compareBytes where
  swap a b := by rw [compareBytes_neg a b]; omega
  trans _ _ _ := compareBytes_trans

/-- The usual lexicographic order. -/
theorem compareBytes_lt_iff (a b : Bytes) : compareBytes a b < 0 ↔ a < b := by
  induction a generalizing b with
  | nil => cases b <;> simp [compareBytes]
  | cons x xs ih =>
    cases b with
    | nil => simp [compareBytes]
    | cons y ys =>
      rw [List.cons_lt_cons_iff, ← ih]
      simp only [compareBytes]
      split
      · rename_i h; simp [h]
      · split
        · rename_i h1 h2
          have : ¬ x = y := by rintro rfl; exact u8_lt_irrefl _ h2
          simp [h1, this]
        · rename_i h1 h2
          have : x = y := by
            simp only [UInt8.lt_iff_toNat_lt] at h1 h2
            exact UInt8.toNat_inj.1 (by omega)
          simp [this]

end Verif
