import Verif.Num.History

/-! # Independence of insignificant bits, visited nodes, longest common prefix -/

namespace Verif.Num
variable {w : Nat} {V : Type}

theorem agree_congr [LawfulKeySize w] {n k k' : BitVec w} {a b : Nat} (hb : b ≤ w) (hab : a ≤ b)
    (h : Verif.sig k b = Verif.sig k' b) : agree n k a = agree n k' a := by
  have h2 := ((sig_eq_iff _ _ _ _).1 h).2
  have : agree n k a = true ↔ agree n k' a = true := by
    rw [agree_iff (by omega), agree_iff (by omega)]
    constructor
    · intro h3 i hi; rw [h3 i hi, h2 i (by omega)]
    · intro h3 i hi; rw [h3 i hi, h2 i (by omega)]
  exact Bool.eq_iff_iff.2 this

theorem branch_congr [LawfulKeySize w] {k k' : BitVec w} {a b : Nat} (hb : b ≤ w) (hab : a < b)
    (h : Verif.sig k b = Verif.sig k' b) : branch k a = branch k' a := by
  rw [branch_eq (by omega), branch_eq (by omega)]
  exact ((sig_eq_iff _ _ _ _).1 h).2 a hab

theorem matchN_congr [LawfulKeySize w] (t : NTree w V) {k k' : BitVec w} {b : Nat} (hb : b ≤ w)
    (h : Verif.sig k b = Verif.sig k' b) : matchN t k b = matchN t k' b := by
  induction t with
  | nil => rfl
  | node n l r ihl ihr =>
    unfold matchN
    by_cases h1 : n.bits > b
    · simp [h1]
    · simp only [h1, if_false, ihl, ihr]
      rw [agree_congr hb (by omega) h]
      by_cases h2 : n.bits = b
      · simp [h2]
      · rw [branch_congr hb (by omega) h]

theorem exactMatch_congr [LawfulKeySize w] (t : NTree w V) {k k' : BitVec w} {b : Nat} (hb : b ≤ w)
    (h : Verif.sig k b = Verif.sig k' b) : exactMatch t k b = exactMatch t k' b := by
  induction t with
  | nil => rfl
  | node n l r ihl ihr =>
    unfold exactMatch
    by_cases h1 : n.bits > b
    · simp [h1]
    · simp only [h1, if_false, ihl, ihr]
      rw [agree_congr hb (by omega) h]
      by_cases h2 : n.bits = b
      · simp [h2]
      · rw [branch_congr hb (by omega) h]

theorem del_congr [LawfulKeySize w] (t : NTree w V) {k k' : BitVec w} {b : Nat} (hb : b ≤ w)
    (h : Verif.sig k b = Verif.sig k' b) : del t k b = del t k' b := by
  induction t with
  | nil => rfl
  | node n l r ihl ihr =>
    unfold del
    by_cases h1 : b ≤ n.bits
    · simp only [h1, if_true]
      rw [agree_congr hb (Nat.le_refl _) h]
    · simp only [h1, if_false, ihl, ihr]
      rw [agree_congr hb (by omega) h, branch_congr hb (by omega) h]

/-- Number of nodes whose `match` method is entered by a lookup: numtree/node32.go:322-361, node64.go:291-321 with a
counter in place of the result. -/
def matchVisits [KeySize w] : NTree w V → BitVec w → Nat → Nat
  | .nil, _, _ => 0
  | .node n l r, key, bits =>
    if n.bits > bits then 1
    else if n.bits = bits then 1
    else if !agree n.key key n.bits then 1
    else if branch key n.bits then matchVisits r key bits + 1
    else matchVisits l key bits + 1

theorem matchVisits_le [KeySize w] {P : List Bool} {t : NTree w V} (h : WF P t) (k : BitVec w) (b : Nat) :
    matchVisits t k b ≤ 1 ∨ P.length + matchVisits t k b ≤ b + 1 := by
  induction t generalizing P with
  | nil => left; simp [matchVisits]
  | node n l r ihl ihr =>
    obtain ⟨_, hp, _, hl, hr⟩ := h
    have hlen := hp.length_le
    simp at hlen
    unfold matchVisits
    by_cases h1 : n.bits > b
    · simp [h1]
    · by_cases h2 : n.bits = b
      · simp [h2]
      · simp only [h1, h2, if_false]
        split
        · simp
        · split
          · have := ihr hr
            simp at this
            omega
          · have := ihl hl
            simp at this
            omega

theorem lcpLen_le (p q : List Bool) : lcpLen p q ≤ p.length ∧ lcpLen p q ≤ q.length := by
  induction p generalizing q with
  | nil => simp [lcpLen]
  | cons a p ih =>
    cases q with
    | nil => simp [lcpLen]
    | cons b q =>
      have := ih q
      simp only [lcpLen]; split <;> simp <;> omega

theorem le_lcpLen_iff (p q : List Bool) (n : Nat) :
    n ≤ lcpLen p q ↔ n ≤ p.length ∧ n ≤ q.length ∧ ∀ i < n, p[i]? = q[i]? := by
  induction p generalizing q n with
  | nil => simp [lcpLen]; intro h; subst h; simp
  | cons a p ih =>
    cases q with
    | nil =>
      simp [lcpLen]
      constructor
      · intro h; subst h; simp
      · rintro ⟨_, h, _⟩; exact h
    | cons b q =>
      cases n with
      | zero => simp
      | succ n =>
        simp only [lcpLen]
        by_cases hab : a = b
        · subst hab
          simp only [if_true, Nat.add_le_add_iff_right, ih q n, List.length_cons]
          constructor
          · rintro ⟨h1, h2, h3⟩
            refine ⟨h1, h2, ?_⟩
            intro i hi
            cases i with
            | zero => simp
            | succ i => simpa using h3 i (by omega)
          · rintro ⟨h1, h2, h3⟩
            refine ⟨h1, h2, ?_⟩
            intro i hi
            simpa using h3 (i+1) (by omega)
        · simp only [hab, if_false]
          constructor
          · intro h; omega
          · rintro ⟨_, _, h3⟩
            have := h3 0 (by omega)
            simp at this
            exact absurd this hab

theorem ncsb_eq_lcpLen [LawfulKeySize w] {k1 k2 : BitVec w} {b1 b2 : Nat} (h1 : b1 ≤ w) (h2 : b2 ≤ w) :
    ncsb k1 b1 k2 b2 = lcpLen (Verif.sig k1 b1) (Verif.sig k2 b2) := by
  have hl := lcpLen_le (Verif.sig k1 b1) (Verif.sig k2 b2)
  have hn := ncsb_le (k1 := k1) (k2 := k2) h1 h2
  simp only [length_sig] at hl
  apply Nat.le_antisymm
  · rw [le_lcpLen_iff]
    have := (le_ncsb_iff (k1 := k1) (k2 := k2) h1 h2 (b := ncsb k1 b1 k2 b2) (by omega)).1 (Nat.le_refl _)
    simp only [length_sig]
    refine ⟨by omega, by omega, ?_⟩
    intro i hi
    have := this.2.2 i hi
    rw [List.getElem?_eq_getElem (by simp; omega), List.getElem?_eq_getElem (by simp; omega)]
    simpa using this
  · rw [le_ncsb_iff h1 h2 (by omega)]
    have := (le_lcpLen_iff (Verif.sig k1 b1) (Verif.sig k2 b2) _).1 (Nat.le_refl _)
    refine ⟨by omega, by omega, ?_⟩
    intro i hi
    have := this.2.2 i hi
    rw [List.getElem?_eq_getElem (by simp; omega), List.getElem?_eq_getElem (by simp; omega)] at this
    simpa using this

end Verif.Num
