import Verif.IP.Bits
import Verif.IP.Model

/-! # Packing and unpacking of addresses -/

namespace Verif.IP
open Verif

theorem getMsbD_shifted {w : Nat} (x : BitVec 8) (s i : Nat) (hs : s + 8 ≤ w) :
    (x.setWidth w <<< s).getMsbD i = (decide (w - s - 8 ≤ i) && decide (i < w - s) && x.getMsbD (i - (w - s - 8))) := by
  rw [BitVec.getMsbD_shiftLeft, BitVec.getMsbD_setWidth]
  by_cases h1 : w - s - 8 ≤ i
  · by_cases h2 : i < w - s
    · simp only [h1, h2]
      simp
      rw [show i + s + 8 - w = i - (w - s - 8) by omega]
      simp; omega
    · have : ¬ (i + s < w) := by omega
      have h3 : x.getMsbD (i + s + 8 - w) = false := by
        rw [BitVec.getMsbD_of_ge]; omega
      simp [h2, h3]
  · have : ¬ (w - 8 ≤ i + s) := by omega
    simp [h1]
    omega

theorem getMsbD_unshifted {w : Nat} (x : BitVec 8) (i : Nat) (hs : 8 ≤ w) :
    (x.setWidth w).getMsbD i = (decide (w - 8 ≤ i) && decide (i < w) && x.getMsbD (i - (w - 8))) := by
  have := getMsbD_shifted (w := w) x 0 i (by omega)
  simpa using this

theorem sig_pack32 (x : Bytes) (h : x.length = 4) : sig (pack32 x) 32 = bitsBE x := by
  match x, h with
  | [a, b, c, d], _ =>
    simp only [bitsBE, List.flatMap_cons, List.flatMap_nil, sig, pack32, List.getD_cons_zero, List.getD_cons_succ]
    simp [List.range_succ]

theorem sig_pack64 (x : Bytes) (h : x.length = 8) : sig (pack64 x) 64 = bitsBE x := by
  match x, h with
  | [a, b, c, d, e, f, g, i], _ =>
    simp only [bitsBE, List.flatMap_cons, List.flatMap_nil, sig, pack64, List.getD_cons_zero, List.getD_cons_succ]
    simp [List.range_succ]

theorem pack64_append (x y : Bytes) (h : 8 ≤ x.length) : pack64 (x ++ y) = pack64 x := by
  unfold pack64
  simp only [List.getD_eq_getElem?_getD]
  repeat rw [List.getElem?_append_left (by omega)]

theorem getMsbD_byteAt {w : Nat} (x : BitVec w) (s j : Nat) (hs : s + 8 ≤ w) (hj : j < 8) :
    (byteAt x s).toBitVec.getMsbD j = x.getMsbD (w - s - 8 + j) := by
  unfold byteAt
  have hff : ∀ i, (0xff#w).getMsbD i = (decide (i < w) && decide (w - 8 ≤ i)) := by
    intro i
    have : (0xff#w) = (BitVec.allOnes 8).setWidth w := by
      apply BitVec.eq_of_toNat_eq
      simp
    rw [this, getMsbD_unshifted _ _ (by omega), BitVec.getMsbD_allOnes]
    by_cases h1 : w - 8 ≤ i <;> by_cases h2 : i < w <;> simp [h1, h2]
    omega
  simp only
  rw [BitVec.getMsbD_setWidth, BitVec.getMsbD_and, hff, BitVec.getMsbD_ushiftRight]
  have e : w - 8 + j - s = w - s - 8 + j := by omega
  have e2 : j + w - 8 = w - 8 + j := by omega
  rw [e2, e]
  have h1 : w - 8 + j < w := by omega
  have h2 : ¬ (w - 8 + j < s) := by omega
  have h3 : w - 8 ≤ j + w := by omega
  simp [h1, h2]
  omega

theorem bits_unpack32 (k : BitVec 32) : bitsBE (unpack32 k) = sig k 32 := by
  simp only [unpack32, bitsBE, List.flatMap_cons, List.flatMap_nil, sig]
  simp [List.range_succ, getMsbD_byteAt]

theorem bits_unpack64 (k : BitVec 64) : bitsBE (unpack64 k) = sig k 64 := by
  simp only [unpack64, bitsBE, List.flatMap_cons, List.flatMap_nil, sig]
  simp [List.range_succ, getMsbD_byteAt]

@[simp] theorem length_unpack32 (k : BitVec 32) : (unpack32 k).length = 4 := rfl
@[simp] theorem length_unpack64 (k : BitVec 64) : (unpack64 k).length = 8 := rfl

theorem unpack32_pack32 (x : Bytes) (h : x.length = 4) : unpack32 (pack32 x) = x :=
  bitsBE_inj (by rw [bits_unpack32, sig_pack32 x h])
theorem unpack64_pack64 (x : Bytes) (h : x.length = 8) : unpack64 (pack64 x) = x :=
  bitsBE_inj (by rw [bits_unpack64, sig_pack64 x h])
theorem pack32_unpack32 (k : BitVec 32) : pack32 (unpack32 k) = k :=
  sig_full_inj (by rw [sig_pack32 _ (by simp), bits_unpack32])
theorem pack64_unpack64 (k : BitVec 64) : pack64 (unpack64 k) = k :=
  sig_full_inj (by rw [sig_pack64 _ (by simp), bits_unpack64])

end Verif.IP
