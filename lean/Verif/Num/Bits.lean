import Verif.Num.Model
import Verif.Spec.Prefix

/-! # Bit-level lemmas for numtree: masks, leading zeros, branches -/

namespace Verif.Num
variable {w : Nat}

/-- The word whose `b` most significant bits are set (independent of the tables). -/
def hiMask (w b : Nat) : BitVec w := BitVec.allOnes w <<< (w - b)

/-- A mask table is right: `w+1` entries, entry `b` has exactly the `b` most significant bits set. -/
class LawfulKeySize (w : Nat) extends KeySize w where
  pos : 0 < w
  small : w < 256
  len : masks.length = w + 1
  entry : ∀ b, b ≤ w → masks[b]? = some (hiMask w b)

theorem masks32_entry : ∀ b, b ≤ 32 → keySize32.masks[b]? = some (hiMask 32 b) := by
  intro b hb
  have : ∀ b : Fin 33, keySize32.masks[b.1]? = some (hiMask 32 b.1) := by decide +kernel
  exact this ⟨b, by omega⟩

theorem masks64_entry : ∀ b, b ≤ 64 → keySize64.masks[b]? = some (hiMask 64 b) := by
  intro b hb
  have : ∀ b : Fin 65, keySize64.masks[b.1]? = some (hiMask 64 b.1) := by decide +kernel
  exact this ⟨b, by omega⟩

instance lawful32 : LawfulKeySize 32 where
  toKeySize := keySize32
  pos := by omega
  small := by omega
  len := rfl
  entry := masks32_entry

instance lawful64 : LawfulKeySize 64 where
  toKeySize := keySize64
  pos := by omega
  small := by omega
  len := rfl
  entry := masks64_entry

theorem getMsbD_hiMask {b i : Nat} (hb : b ≤ w) :
    (hiMask w b).getMsbD i = decide (i < b) := by
  unfold hiMask
  rw [BitVec.getMsbD_shiftLeft]
  rw [BitVec.getMsbD_eq_getLsbD]
  by_cases h : i < b
  · have h1 : i + (w - b) < w := by omega
    simp [h, h1]
    omega
  · have h1 : ¬ (i + (w - b) < w) := by omega
    simp [h, h1]

section
variable [LawfulKeySize w]

theorem mask_eq {b : Nat} (hb : b ≤ w) : (mask b : BitVec w) = hiMask w b := by
  unfold mask
  simp [List.getD, LawfulKeySize.entry b hb]

theorem getMsbD_mask {b i : Nat} (hb : b ≤ w) : (mask b : BitVec w).getMsbD i = decide (i < b) := by
  rw [mask_eq hb, getMsbD_hiMask hb]
end

/-! ## significant bits -/

@[simp] theorem length_sig (k : BitVec w) (b : Nat) : (sig k b).length = b := by simp [sig]

@[simp] theorem getElem_sig (k : BitVec w) (b i : Nat) (h : i < (sig k b).length) :
    (sig k b)[i] = k.getMsbD i := by simp [sig]

theorem sig_prefix_iff (k k' : BitVec w) (a b : Nat) :
    sig k a <+: sig k' b ↔ a ≤ b ∧ ∀ i, i < a → k.getMsbD i = k'.getMsbD i := by
  rw [List.prefix_iff_getElem]
  constructor
  · rintro ⟨h, h2⟩
    refine ⟨by simpa using h, ?_⟩
    intro i hi
    have := h2 i (by simpa using hi)
    simpa using this
  · rintro ⟨h, h2⟩
    refine ⟨by simpa using h, ?_⟩
    intro i hi
    simpa using h2 i (by simpa using hi)

theorem sig_eq_iff (k k' : BitVec w) (a b : Nat) :
    sig k a = sig k' b ↔ a = b ∧ ∀ i, i < a → k.getMsbD i = k'.getMsbD i := by
  constructor
  · intro h
    have hl : a = b := by have := congrArg List.length h; simpa using this
    have : sig k a <+: sig k' b := by rw [h]; exact List.prefix_refl _
    exact ⟨hl, ((sig_prefix_iff ..).1 this).2⟩
  · rintro ⟨rfl, h⟩
    apply List.ext_getElem (by simp)
    intro i h1 h2
    simpa using h i (by simpa using h1)

theorem sig_succ (k : BitVec w) (b : Nat) : sig k (b+1) = sig k b ++ [k.getMsbD b] := by
  simp [sig, List.range_succ]

@[simp] theorem sig_zero (k : BitVec w) : sig k 0 = [] := rfl

theorem sig_take (k : BitVec w) {a b : Nat} (h : a ≤ b) : (sig k b).take a = sig k a := by
  apply List.ext_getElem (by simp; omega)
  intro i h1 h2
  simp

theorem sig_prefix_self (k : BitVec w) {a b : Nat} (h : a ≤ b) : sig k a <+: sig k b := by
  rw [sig_prefix_iff]; exact ⟨h, fun _ _ => rfl⟩

/-! ## branch -/

theorem branch_eq {k : BitVec w} {b : Nat} (hb : b < w) : branch k b = k.getMsbD b := by
  unfold branch
  have h1 : (k >>> (w - 1 - b)) &&& 1#w = if k.getMsbD b then 1#w else 0#w := by
    apply BitVec.eq_of_getLsbD_eq
    intro i hi
    rw [BitVec.getMsbD_eq_getLsbD]
    by_cases h0 : i = 0
    · subst h0
      by_cases hk : k.getLsbD (w - 1 - b) <;> simp [hk, hb, hi]
    · by_cases hk : k.getLsbD (w - 1 - b) <;> simp [hk, hb, h0, BitVec.getLsbD_one]
  rw [h1]
  have : (0#w == 1#w) = false := by
    have : 0#w ≠ 1#w := by
      intro h
      have := congrArg (fun x => x.getLsbD 0) h
      simp at this; omega
    simpa using this
  by_cases hk : k.getMsbD b <;> simp [hk, this]

/-! ## agreement -/

section
variable [LawfulKeySize w]

theorem agree_iff {k1 k2 : BitVec w} {b : Nat} (hb : b ≤ w) :
    agree k1 k2 b = true ↔ ∀ i, i < b → k1.getMsbD i = k2.getMsbD i := by
  unfold agree
  rw [beq_iff_eq]
  constructor
  · intro h i hi
    have := congrArg (fun x => x.getMsbD i) h
    simp [getMsbD_mask hb, hi] at this
    exact this
  · intro h
    apply BitVec.eq_of_getMsbD_eq
    intro i hi
    simp only [BitVec.getMsbD_and, BitVec.getMsbD_xor, getMsbD_mask hb, BitVec.getMsbD_zero]
    by_cases hib : i < b
    · simp [hib, h i hib]
    · simp [hib]

theorem agree_iff_prefix {k1 k2 : BitVec w} {b b2 : Nat} (hb : b ≤ w) (hb2 : b ≤ b2) :
    agree k1 k2 b = true ↔ sig k1 b <+: sig k2 b2 := by
  rw [agree_iff hb, sig_prefix_iff]
  simp [hb2]
end

/-! ## leading zeros -/

theorem clz_le_width (x : BitVec w) : x.clz.toNat ≤ w := by
  have h := BitVec.clz_le (x := x)
  rw [BitVec.le_def] at h
  have : (BitVec.ofNat w w).toNat = w := by
    simp [Nat.mod_eq_of_lt (Nat.lt_two_pow_self)]
  have h2 : ((w : BitVec w)).toNat = w := this
  omega

theorem le_clz_iff (x : BitVec w) (b : Nat) (hb : b ≤ w) :
    b ≤ x.clz.toNat ↔ ∀ i, i < b → x.getMsbD i = false := by
  constructor
  · intro h i hi
    have h1 := BitVec.toNat_lt_two_pow_sub_clz (x := x)
    rw [BitVec.getMsbD_eq_getLsbD]
    have hi' : i < w := by omega
    simp only [hi', decide_true, Bool.true_and]
    rw [← BitVec.testBit_toNat]
    apply Nat.testBit_lt_two_pow
    exact Nat.lt_of_lt_of_le h1 (Nat.pow_le_pow_right (by omega) (by omega))
  · intro h
    by_cases hlt : b ≤ x.clz.toNat
    · exact hlt
    · exfalso
      have hc : x.clz.toNat < b := by omega
      have hne : x ≠ 0#w := by
        rintro rfl
        have : (0#w).clz = (w : BitVec w) := by
          rw [BitVec.clz_eq_iff_eq_zero]
        have h3 : (BitVec.ofNat w w).toNat = w := by
          simp [Nat.mod_eq_of_lt (Nat.lt_two_pow_self)]
        rw [this] at hc
        have h2 : ((w : BitVec w)).toNat = w := h3
        omega
      have h1 := BitVec.getLsbD_true_clz_of_ne_zero (by omega) hne
      have h2 := h _ hc
      rw [BitVec.getMsbD_eq_getLsbD] at h2
      have : x.clz.toNat < w := by omega
      simp [this] at h2
      rw [h2] at h1
      exact absurd h1 (by simp)

section
variable [LawfulKeySize w]

theorem le_ncsb_iff {k1 k2 : BitVec w} {b1 b2 b : Nat} (h1 : b1 ≤ w) (h2 : b2 ≤ w) (hb : b ≤ w) :
    b ≤ ncsb k1 b1 k2 b2 ↔ b ≤ b1 ∧ b ≤ b2 ∧ ∀ i, i < b → k1.getMsbD i = k2.getMsbD i := by
  unfold ncsb
  rw [le_clz_iff _ _ hb]
  simp only [BitVec.getMsbD_or, BitVec.getMsbD_xor, BitVec.getMsbD_not, getMsbD_mask h1, getMsbD_mask h2]
  constructor
  · intro h
    refine ⟨?_, ?_, ?_⟩
    · by_cases hc : b ≤ b1
      · exact hc
      · have h3 := h b1 (by omega)
        have h4 : b1 < w := by omega
        simp [h4] at h3
    · by_cases hc : b ≤ b2
      · exact hc
      · have h3 := h b2 (by omega)
        have h4 : b2 < w := by omega
        simp [h4] at h3
    · intro i hi
      have := h i hi
      simp only [Bool.or_eq_false_iff] at this
      have := this.1.1
      simpa using this
  · rintro ⟨ha, hb', h⟩ i hi
    have : i < b1 := by omega
    have : i < b2 := by omega
    simp_all

theorem ncsb_le {k1 k2 : BitVec w} {b1 b2 : Nat} (h1 : b1 ≤ w) (h2 : b2 ≤ w) :
    ncsb k1 b1 k2 b2 ≤ b1 ∧ ncsb k1 b1 k2 b2 ≤ b2 := by
  have hw : ncsb k1 b1 k2 b2 ≤ w := clz_le_width _
  have := (le_ncsb_iff (k1 := k1) (k2 := k2) h1 h2 hw).1 (Nat.le_refl _)
  exact ⟨this.1, this.2.1⟩

theorem ncsb_agree {k1 k2 : BitVec w} {b1 b2 : Nat} (h1 : b1 ≤ w) (h2 : b2 ≤ w) :
    ∀ i, i < ncsb k1 b1 k2 b2 → k1.getMsbD i = k2.getMsbD i := by
  have hw : ncsb k1 b1 k2 b2 ≤ w := clz_le_width _
  exact ((le_ncsb_iff (k1 := k1) (k2 := k2) h1 h2 hw).1 (Nat.le_refl _)).2.2

/-- If the common count is below both lengths, the keys differ right after it. -/
theorem ncsb_diff {k1 k2 : BitVec w} {b1 b2 : Nat} (h1 : b1 ≤ w) (h2 : b2 ≤ w)
    (hlt1 : ncsb k1 b1 k2 b2 < b1) (hlt2 : ncsb k1 b1 k2 b2 < b2) :
    k1.getMsbD (ncsb k1 b1 k2 b2) ≠ k2.getMsbD (ncsb k1 b1 k2 b2) := by
  intro he
  have := (le_ncsb_iff (k1 := k1) (k2 := k2) (b := ncsb k1 b1 k2 b2 + 1) h1 h2 (by omega)).2
    ⟨by omega, by omega, by
      intro i hi
      by_cases hc : i < ncsb k1 b1 k2 b2
      · exact ncsb_agree h1 h2 i hc
      · have : i = ncsb k1 b1 k2 b2 := by omega
        rw [this]; exact he⟩
  omega

theorem getMsbD_and_mask {k : BitVec w} {b i : Nat} (hb : b ≤ w) :
    (k &&& mask b).getMsbD i = (k.getMsbD i && decide (i < b)) := by
  simp [getMsbD_mask hb]

theorem sig_and_mask {k : BitVec w} {a b : Nat} (hb : b ≤ w) (ha : a ≤ b) :
    sig (k &&& mask b) a = sig k a := by
  rw [sig_eq_iff]
  refine ⟨rfl, ?_⟩
  intro i hi
  have : i < b := by omega
  simp [getMsbD_and_mask hb, this]
end

end Verif.Num
