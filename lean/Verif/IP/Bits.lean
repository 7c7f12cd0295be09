import Verif.IP.Net
import Verif.Num.Bits
import Verif.Domain.Parse

/-! # Bits of addresses and masks -/

namespace Verif.IP
open Verif

theorem forall_u8' {P : UInt8 → Prop} (h : ∀ n : Fin 256, P (UInt8.ofNat n.val)) : ∀ c, P c := Domain.forall_u8 h

@[simp] theorem bitsBE_nil : bitsBE [] = [] := rfl
@[simp] theorem bitsBE_cons (b : UInt8) (bs : Bytes) : bitsBE (b :: bs) = sig b.toBitVec 8 ++ bitsBE bs := rfl
@[simp] theorem bitsBE_append (a b : Bytes) : bitsBE (a ++ b) = bitsBE a ++ bitsBE b := by simp [bitsBE]
@[simp] theorem length_bitsBE (bs : Bytes) : (bitsBE bs).length = 8 * bs.length := by
  induction bs with
  | nil => rfl
  | cons b bs ih => simp [ih]; omega

theorem sig_full_inj {w : Nat} {a b : BitVec w} (h : sig a w = sig b w) : a = b := by
  apply BitVec.eq_of_getMsbD_eq
  intro i hi
  exact ((Num.sig_eq_iff _ _ _ _).1 h).2 i hi

theorem bitsBE_inj {a b : Bytes} (h : bitsBE a = bitsBE b) : a = b := by
  induction a generalizing b with
  | nil =>
    cases b with
    | nil => rfl
    | cons y ys => have := congrArg List.length h; simp at this; omega
  | cons x xs ih =>
    cases b with
    | nil => have := congrArg List.length h; simp at this
    | cons y ys =>
      simp only [bitsBE_cons] at h
      obtain ⟨h1, h2⟩ := List.append_inj h (by simp)
      rw [ih h2, UInt8.eq_of_toBitVec_eq (sig_full_inj h1)]

theorem maskByte (v : UInt8) : v ≠ 0xff →
    ((onesLoop 8 v).2 = 0 → (onesLoop 8 v).1 < 8 ∧
      sig v.toBitVec 8 = List.replicate (onesLoop 8 v).1 true ++ List.replicate (8 - (onesLoop 8 v).1) false) ∧
    ((onesLoop 8 v).2 ≠ 0 → ∀ n : Fin 9, sig v.toBitVec 8 ≠ List.replicate n.val true ++ List.replicate (8 - n.val) false) := by
  revert v
  apply forall_u8'
  decide +kernel

theorem sig_ff : sig (0xff : UInt8).toBitVec 8 = List.replicate 8 true := by decide
theorem sig_zero8 : sig (0 : UInt8).toBitVec 8 = List.replicate 8 false := by decide

theorem bitsBE_replicate_zero (n : Nat) : bitsBE (List.replicate n 0) = List.replicate (8 * n) false := by
  induction n with
  | zero => rfl
  | succ n ih =>
    rw [List.replicate_succ, bitsBE_cons, ih, sig_zero8, List.replicate_append_replicate]; congr 1; omega

/-- `maskSize` recognises exactly the canonical masks. -/
theorem simpleMaskLength_iff (m : Bytes) (n : Nat) :
    simpleMaskLength m = some n ↔ n ≤ 8 * m.length ∧ bitsBE m = List.replicate n true ++ List.replicate (8 * m.length - n) false := by
  induction m generalizing n with
  | nil =>
    simp only [simpleMaskLength, Option.some.injEq]
    constructor
    · rintro rfl; exact ⟨by omega, rfl⟩
    · rintro ⟨h, _⟩; simp at h; exact h.symm
  | cons v rest ih =>
    unfold simpleMaskLength
    by_cases hv : v = 0xff
    · subst hv
      rw [if_pos rfl, Option.map_eq_some_iff]
      constructor
      · rintro ⟨k, hk, rfl⟩
        obtain ⟨h1, h2⟩ := (ih k).1 hk
        refine ⟨by simp; omega, ?_⟩
        rw [bitsBE_cons, h2, sig_ff, ← List.append_assoc, List.replicate_append_replicate]
        congr 2
        · omega
        · simp; omega
      · rintro ⟨h1, h2⟩
        simp only [List.length_cons] at h1 h2
        rw [bitsBE_cons, sig_ff] at h2
        have hn : 8 ≤ n := by
          apply Classical.byContradiction; intro hlt
          have h3 := congrArg (fun l => l[n]?) h2
          rw [List.getElem?_append_left (by simp; omega), List.getElem?_append_right (by simp)] at h3
          rw [List.getElem?_replicate, if_pos (by omega), List.getElem?_replicate, if_pos (by simp; omega)] at h3
          cases h3
        refine ⟨n - 8, (ih _).2 ⟨by omega, ?_⟩, by omega⟩
        have h4 : List.replicate n true = List.replicate 8 true ++ List.replicate (n - 8) true := by
          rw [List.replicate_append_replicate]; congr 1; omega
        rw [h4, List.append_assoc] at h2
        rw [List.append_cancel_left h2]
        congr 2; omega
    · rw [if_neg hv]
      obtain ⟨b1, b2⟩ := maskByte v hv
      constructor
      · intro h
        split at h
        · cases h
        · rename_i hz
          obtain ⟨c1, c2⟩ := b1 (by simpa using hz)
          split at h
          · rename_i hall
            cases h
            have hr : rest = List.replicate rest.length 0 := by
              apply List.eq_replicate_of_mem
              intro b hb
              simpa using List.all_eq_true.1 hall b hb
            refine ⟨by simp; omega, ?_⟩
            rw [bitsBE_cons, c2, hr, bitsBE_replicate_zero, List.append_assoc, List.replicate_append_replicate]
            congr 2
            simp; omega
          · cases h
      · rintro ⟨h1, h2⟩
        simp only [List.length_cons] at h1 h2
        rw [bitsBE_cons] at h2
        -- the first byte
        have hn : n < 8 := by
          apply Classical.byContradiction; intro hge
          apply hv
          have h3 := congrArg (List.take 8) h2
          rw [List.take_left' (by simp), List.take_append_of_le_length (by simp; omega), List.take_replicate] at h3
          rw [Nat.min_eq_left (by omega), ← sig_ff] at h3
          exact UInt8.eq_of_toBitVec_eq (sig_full_inj h3)
        have h3 := congrArg (List.take 8) h2
        have h4 := congrArg (List.drop 8) h2
        rw [List.take_left' (by simp), List.take_append, List.take_replicate, List.take_replicate] at h3
        simp only [List.length_replicate] at h3
        rw [Nat.min_eq_right (by omega), Nat.min_eq_left (by omega)] at h3
        rw [List.drop_left' (by simp), List.drop_append, List.drop_replicate, List.drop_replicate] at h4
        simp only [List.length_replicate] at h4
        have hz : (onesLoop 8 v).2 = 0 := by
          apply Classical.byContradiction; intro hne
          exact b2 hne ⟨n, by omega⟩ h3
        obtain ⟨c1, c2⟩ := b1 hz
        have hall : rest.all (· == 0) = true := by
          have e : bitsBE rest = bitsBE (List.replicate rest.length 0) := by
            rw [h4, bitsBE_replicate_zero, show n - 8 = 0 by omega]
            simp; omega
          rw [bitsBE_inj e]
          simp
        rw [if_neg (by simpa using hz), if_pos hall]
        congr 1
        -- the counts agree
        have h5 := congrArg (fun l => l.count true) (h3.symm.trans c2)
        simpa [List.count_append, List.count_replicate] using h5.symm

theorem cidrByte : ∀ n : Fin 8, sig (~~~ ((0xff : UInt8) >>> UInt8.ofNat n.val)).toBitVec 8 =
    List.replicate n.val true ++ List.replicate (8 - n.val) false := by decide +kernel

theorem cidrBytes_zero (l : Nat) : cidrBytes l 0 = List.replicate l 0 := by
  induction l with
  | zero => rfl
  | succ l ih => rw [cidrBytes, if_neg (by omega), ih]; rfl

@[simp] theorem length_cidrBytes (l n : Nat) : (cidrBytes l n).length = l := by
  induction l generalizing n with
  | zero => rfl
  | succ l ih => rw [cidrBytes]; split <;> simp [ih]

theorem bitsBE_cidrBytes (l n : Nat) (h : n ≤ 8 * l) :
    bitsBE (cidrBytes l n) = List.replicate n true ++ List.replicate (8 * l - n) false := by
  induction l generalizing n with
  | zero => simp [cidrBytes]; omega
  | succ l ih =>
    rw [cidrBytes]
    split
    · rw [bitsBE_cons, ih _ (by omega), sig_ff, ← List.append_assoc, List.replicate_append_replicate]
      congr 2 <;> omega
    · rename_i hlt
      rw [bitsBE_cons, cidrByte ⟨n, by omega⟩, cidrBytes_zero, bitsBE_replicate_zero, List.append_assoc, List.replicate_append_replicate]
      congr 2
      simp only; omega

theorem sig_and8 (a b : UInt8) : sig (a &&& b).toBitVec 8 = (sig a.toBitVec 8).zipWith (· && ·) (sig b.toBitVec 8) := by
  apply List.ext_getElem
  · simp
  · intro i h1 h2
    simp

theorem bitsBE_maskIP (ip m : Bytes) (h : ip.length = m.length) :
    bitsBE (maskIP ip m) = (bitsBE ip).zipWith (· && ·) (bitsBE m) := by
  unfold maskIP
  induction ip generalizing m with
  | nil => simp
  | cons a ip ih =>
    cases m with
    | nil => simp at h
    | cons b m =>
      rw [List.zipWith_cons_cons, bitsBE_cons, bitsBE_cons, bitsBE_cons, ih m (by simpa using h), sig_and8,
        List.zipWith_append (by simp)]

theorem zipWith_and_mask (p : List Bool) (n : Nat) (h : n ≤ p.length) :
    p.zipWith (· && ·) (List.replicate n true ++ List.replicate (p.length - n) false) =
      p.take n ++ List.replicate (p.length - n) false := by
  induction p generalizing n with
  | nil => simp
  | cons a p ih =>
    cases n with
    | zero =>
      have := ih 0 (by omega)
      simp at this
      simp [List.replicate_succ, this]
    | succ n =>
      have := ih n (by simpa using h)
      simp [List.replicate_succ, this]

@[simp] theorem length_maskIP (ip m : Bytes) : (maskIP ip m).length = min ip.length m.length := by simp [maskIP]

theorem bitsBE_maskIP_cidr (ip : Bytes) (n : Nat) (h : n ≤ 8 * ip.length) :
    bitsBE (maskIP ip (cidrBytes ip.length n)) = (bitsBE ip).take n ++ List.replicate (8 * ip.length - n) false := by
  rw [bitsBE_maskIP _ _ (by simp), bitsBE_cidrBytes _ _ h]
  have := zipWith_and_mask (bitsBE ip) n (by simpa using h)
  simpa using this

end Verif.IP
