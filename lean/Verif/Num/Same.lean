import Verif.Num.Map

/-! # Inserting an entry under the key it is stored with -/

namespace Verif.Num
variable {w : Nat} {V : Type} [LawfulKeySize w]

/-- What `exactMatch` finds. -/
theorem exactMatch_found {P : List Bool} {t : NTree w V} (h : WF P t) {k : BitVec w} {b : Nat} (hb : b ≤ w) {n : ND w V} {x y : NTree w V}
    (he : exactMatch t k b = .node n x y) : n.bits = b ∧ n.leaf = true ∧ ∀ i, i < b → n.key.getMsbD i = k.getMsbD i := by
  induction t generalizing P with
  | nil => simp [exactMatch] at he
  | node m l r ihl ihr =>
    obtain ⟨hm, _, _, hl, hr⟩ := h
    simp only [exactMatch] at he
    by_cases h1 : m.bits > b
    · simp [h1] at he
    · simp only [h1, if_false] at he
      by_cases h2 : m.bits = b
      · simp only [h2, if_true] at he
        split at he
        · rename_i hh
          simp only [Bool.and_eq_true] at hh
          cases he
          exact ⟨h2, hh.1, (agree_iff hb).1 hh.2⟩
        · cases he
      · simp only [h2, if_false] at he
        split at he
        · cases he
        · split at he
          · exact ihr hr he
          · exact ihl hl he

/-- Inserting an entry under the key of its node with the value it has changes nothing. -/
theorem insert_self [Inhabited V] {P : List Bool} {t : NTree w V} (h : WF P t) {b : Nat} (hb : b ≤ w) {n : ND w V} {x y : NTree w V}
    (he : exactMatch t n.key b = .node n x y) : insert t ⟨n.key, b, true, n.value⟩ = t := by
  induction t generalizing P with
  | nil => simp [exactMatch] at he
  | node m l r ihl ihr =>
    obtain ⟨hm, _, _, hl, hr⟩ := h
    simp only [exactMatch] at he
    by_cases h1 : m.bits > b
    · simp [h1] at he
    · simp only [h1, if_false] at he
      by_cases h2 : m.bits = b
      · simp only [h2, if_true] at he
        split at he
        · rename_i hh
          simp only [Bool.and_eq_true] at hh
          cases he
          have hag := (agree_iff hb).1 hh.2
          have h3 : n.bits ≤ ncsb n.key n.bits n.key b :=
            (le_ncsb_iff hm hb hm).2 ⟨Nat.le_refl _, by omega, by rw [h2]; exact hag⟩
          have h4 : ¬ ncsb n.key n.bits n.key b < n.bits := by omega
          obtain ⟨nk, nb, nl, nv⟩ := n
          simp only at h2 hh h4
          simp only [insert, h4, if_false]
          simp [h2, hh.1]
        · cases he
      · simp only [h2, if_false] at he
        split at he
        · cases he
        · rename_i hh
          have hh : agree m.key n.key m.bits = true := by simpa using hh
          have h3 : m.bits ≤ ncsb m.key m.bits n.key b :=
            (le_ncsb_iff hm hb hm).2 ⟨Nat.le_refl _, by omega, (agree_iff hm).1 hh⟩
          have h4 := (ncsb_le (k1 := m.key) (k2 := n.key) hm hb).1
          have h5 : ncsb m.key m.bits n.key b = m.bits := by omega
          have h6 : ¬ b = m.bits := fun q => h2 q.symm
          simp only [insert, h5, Nat.lt_irrefl, if_false, h6]
          split at he
          · rename_i hb
            simp [hb, ihr hr he]
          · rename_i hb
            simp [hb, ihl hl he]

end Verif.Num
