import Verif.DL.Lemmas

namespace Verif.DL
open Verif.RB
variable {V : Type}

/-- Balanced and sorted. -/
def Ok (t : Option (Tree V)) : Prop := Balanced (rootOf t) ∧ Sorted cmpLabel (RB.enumerate (rootOf t))

theorem ok_none : Ok (none : Option (Tree V)) := ⟨balanced_nil, List.Pairwise.nil⟩
theorem ok_new : Ok (NewTree : Option (Tree V)) := ⟨balanced_nil, List.Pairwise.nil⟩

theorem mem_iff {t : Option (Tree V)} (h : Ok t) {l : Bytes} {v : V} : (l, v) ∈ RawEnumerate t ↔ RawGet t l = some v := by
  rw [rawGet_eq, get_spec cmpLabel_lawful h.2]
  unfold RawEnumerate
  constructor
  · intro hm
    rw [(h.2.lookupL_iff cmpLabel_lawful l (l, v)).2 ⟨hm, cmpLabel_lawful.refl l⟩]; rfl
  · intro hx
    cases hl : lookupL cmpLabel l (RB.enumerate (rootOf t)) with
    | none => simp [hl] at hx
    | some p =>
      obtain ⟨k, v'⟩ := p
      simp [hl] at hx; subst hx
      obtain ⟨h6, h7⟩ := (h.2.lookupL_iff cmpLabel_lawful l _).1 hl
      cases cmpLabel_eq_zero.1 h7
      exact h6

theorem isEmpty_iff {t : Option (Tree V)} (h : Ok t) : IsEmpty t = true ↔ ∀ q, RawGet t q = none := by
  unfold IsEmpty
  constructor
  · intro h1 q
    rw [rawGet_eq, BTree.isNil_iff.1 h1]; rfl
  · intro h1
    cases hr : rootOf t with
    | nil => rfl
    | node d l r =>
      have : RawGet t d.key = some d.value := by
        rw [← mem_iff h]; unfold RawEnumerate; rw [hr]; simp [RB.enumerate]
      simp [h1] at this

theorem rawInsert_ok [Inhabited V] {t : Option (Tree V)} (h : Ok t) (k : Bytes) (v : V) :
    ∃ t', RawInsert t k v = some (some t') ∧ Ok (some t') ∧
      (∀ q, RawGet (some t') q = if k = q then some v else RawGet t q) ∧ IsEmpty (some t') = false := by
  obtain ⟨r', h5, h6⟩ := insert_balanced (cmp := cmpLabel) h.1 k v (cmpLabel_lawful.refl k)
  have h7 := insert_spec cmpLabel_lawful h5 h.2
  obtain ⟨h8, h9⟩ := h.2.insertL cmpLabel_lawful k v
  have hok : Ok (some (⟨r'⟩ : Tree V)) := ⟨h6, by simpa [rootOf, h7] using h8⟩
  have hget : ∀ q, RawGet (some (⟨r'⟩ : Tree V)) q = if k = q then some v else RawGet t q := by
    intro q
    rw [rawGet_eq, rawGet_eq, get_spec cmpLabel_lawful hok.2, get_spec cmpLabel_lawful h.2]
    rw [show rootOf (some (⟨r'⟩ : Tree V)) = r' from rfl, h7, h9]
    simp only [cmpLabel_eq_zero]
    split
    · cases lookupL cmpLabel q (RB.enumerate (rootOf t)) <;> rfl
    · rfl
  refine ⟨⟨r'⟩, by simp [RawInsert, h5], hok, hget, ?_⟩
  cases he : IsEmpty (some (⟨r'⟩ : Tree V)) with
  | false => rfl
  | true =>
    have := (isEmpty_iff hok).1 he k
    simp [hget] at this

theorem rawDelete_ok {t : Option (Tree V)} (h : Ok t) (k : Bytes) : Ok (RawDelete t k).1 ∧
    ∀ q, RawGet (RawDelete t k).1 q = if k = q then none else RawGet t q := by
  have h1 := (rawDelete_eq t k).1
  have h2 := (del_spec cmpLabel_lawful h.2 k).1
  obtain ⟨h8, h9⟩ := h.2.eraseL cmpLabel_lawful k
  have hok : Ok (RawDelete t k).1 := by
    unfold Ok
    rw [h1]
    exact ⟨del_balanced (cmp := cmpLabel) h.1 k, by rw [h2]; exact h8⟩
  refine ⟨hok, fun q => ?_⟩
  rw [rawGet_eq, rawGet_eq, get_spec cmpLabel_lawful hok.2, get_spec cmpLabel_lawful h.2, h1, h2, h9]
  simp only [cmpLabel_eq_zero]
  split <;> rfl

theorem isRed_updAt (k : Bytes) (v : V) (t : RTree Bytes V) : isRed (updAt k v t) = isRed t := by
  cases t with
  | nil => rfl
  | node d l r =>
    unfold updAt
    split
    · rfl
    · split <;> rfl

theorem RBal_updAt {k : Bytes} {v : V} {t : RTree Bytes V} {n : Nat} (h : RBal t n) : RBal (updAt k v t) n := by
  induction t generalizing n with
  | nil => exact h
  | node d l r ihl ihr =>
    simp only [RBal] at h
    unfold updAt
    split
    · exact h
    · split <;> simp only [RBal, isRed_updAt] <;> split <;> rename_i hd <;> simp only [hd, if_true] at h
      · exact ⟨h.1, ihr h.2.1, h.2.2⟩
      · obtain ⟨m, h1, h2, h3⟩ := h; exact ⟨m, h1, h2, ihr h3⟩
      · exact ⟨ihl h.1, h.2⟩
      · obtain ⟨m, h1, h2, h3⟩ := h; exact ⟨m, h1, ihl h2, h3⟩

theorem insertL_right {k : Bytes} {v : V} {A B : List (Bytes × V)} (h : ∀ a ∈ A, cmpLabel a.1 k < 0) :
    insertL cmpLabel k v (A ++ B) = A ++ insertL cmpLabel k v B := by
  induction A with
  | nil => rfl
  | cons a A ih =>
    have h1 := h a (by simp)
    have h2 : ¬ cmpLabel a.1 k = 0 := by omega
    simp [insertL, h1, h2, ih (fun x hx => h x (by simp [hx]))]

theorem insertL_left {k : Bytes} {v : V} {A B : List (Bytes × V)} (h : ∃ a ∈ A, cmpLabel a.1 k = 0) : insertL cmpLabel k v (A ++ B) = insertL cmpLabel k v A ++ B ∨
      ∃ a ∈ A, ∃ b ∈ A, 0 < cmpLabel a.1 k ∧ cmpLabel b.1 k = 0 ∧ [a, b].Sublist A := by
  induction A with
  | nil => simp at h
  | cons a A ih =>
    by_cases h0 : cmpLabel a.1 k = 0
    · left; simp [insertL, h0]
    · have hex : ∃ b ∈ A, cmpLabel b.1 k = 0 := by
        obtain ⟨b, hb, h1⟩ := h
        rcases List.mem_cons.1 hb with rfl | hb
        · exact absurd h1 h0
        · exact ⟨b, hb, h1⟩
      by_cases h1 : cmpLabel a.1 k < 0
      · rcases ih hex with h2 | ⟨x, hx, y, hy, h2, h3, h4⟩
        · left; simp [insertL, h0, h1, h2]
        · right; exact ⟨x, by simp [hx], y, by simp [hy], h2, h3, h4.cons a⟩
      · right
        obtain ⟨b, hb, hb0⟩ := hex
        exact ⟨a, by simp, b, by simp [hb], by omega, hb0, (List.singleton_sublist.2 hb).cons_cons a⟩

theorem enumerate_updAt {k : Bytes} {v : V} {t : RTree Bytes V} (hs : Sorted cmpLabel (RB.enumerate t))
    (hk : ∃ a ∈ RB.enumerate t, cmpLabel a.1 k = 0) : RB.enumerate (updAt k v t) = insertL cmpLabel k v (RB.enumerate t) := by
  have hc := cmpLabel_lawful
  induction t with
  | nil => simp [RB.enumerate] at hk
  | node d l r ihl ihr =>
    simp only [RB.enumerate] at hs hk
    have hp := List.pairwise_append.1 hs
    unfold updAt
    split
    · rename_i h0
      simp only [RB.enumerate]
      rw [insertL_mid (hs.left_lt hc (by simp only; omega)) h0]
    · rename_i h0
      split
      · rename_i h1
        have hl : ∀ a ∈ RB.enumerate l, cmpLabel a.1 k < 0 := hs.left_lt hc (by simp only; omega)
        have hex : ∃ a ∈ RB.enumerate r, cmpLabel a.1 k = 0 := by
          obtain ⟨a, ha, h2⟩ := hk
          simp only [List.mem_append, List.mem_cons] at ha
          rcases ha with ha | rfl | ha
          · have := hl a ha; omega
          · exact absurd h2 h0
          · exact ⟨a, ha, h2⟩
        simp only [RB.enumerate, ihr (List.pairwise_cons.1 hp.2.1).2 hex]
        have : RB.enumerate l ++ (d.key, d.value) :: RB.enumerate r = (RB.enumerate l ++ [(d.key, d.value)]) ++ RB.enumerate r := by simp
        rw [this, insertL_right]
        · simp
        · intro a ha
          simp only [List.mem_append, List.mem_singleton] at ha
          rcases ha with ha | rfl
          · exact hl a ha
          · exact h1
      · rename_i h1
        have hr : ∀ a ∈ RB.enumerate r, 0 < cmpLabel a.1 k := hs.right_gt hc (by simp only; omega)
        have hex : ∃ a ∈ RB.enumerate l, cmpLabel a.1 k = 0 := by
          obtain ⟨a, ha, h2⟩ := hk
          simp only [List.mem_append, List.mem_cons] at ha
          rcases ha with ha | rfl | ha
          · exact ⟨a, ha, h2⟩
          · exact absurd h2 h0
          · have := hr a ha; omega
        simp only [RB.enumerate, ihl hp.1 hex]
        rcases insertL_left (v := v) (B := (d.key, d.value) :: RB.enumerate r) hex with h2 | ⟨x, hx, y, hy, h2, h3, h4⟩
        · rw [h2]
        · have : cmpLabel x.1 y.1 < 0 := by
            have := List.Pairwise.sublist h4 hp.1
            simpa using this
          have h5 := hc.lt_of_lt_of_le this (show cmpLabel y.1 k ≤ 0 by omega)
          omega

theorem updAt_ok {t : Tree V} (h : Ok (some t)) {k : Bytes} {m : V} (hm : RawGet (some t) k = some m) (v : V) :
    Ok (some ⟨updAt k v t.root⟩) ∧ (∀ q, RawGet (some ⟨updAt k v t.root⟩) q = if k = q then some v else RawGet (some t) q) ∧
      IsEmpty (some ⟨updAt k v t.root⟩) = false := by
  have hmem := (mem_iff h).2 hm
  have he : RB.enumerate (updAt k v t.root) = insertL cmpLabel k v (RB.enumerate t.root) :=
    enumerate_updAt h.2 ⟨_, hmem, cmpLabel_lawful.refl k⟩
  obtain ⟨h8, h9⟩ := h.2.insertL cmpLabel_lawful k v
  have hok : Ok (some (⟨updAt k v t.root⟩ : Tree V)) := by
    refine ⟨⟨?_, ?_⟩, ?_⟩
    · rw [show rootOf (some (⟨updAt k v t.root⟩ : Tree V)) = updAt k v t.root from rfl, isRed_updAt]; exact h.1.1
    · obtain ⟨n, hn⟩ := h.1.2
      exact ⟨n, RBal_updAt hn⟩
    · rw [show rootOf (some (⟨updAt k v t.root⟩ : Tree V)) = updAt k v t.root from rfl, he]; exact h8
  have hget : ∀ q, RawGet (some (⟨updAt k v t.root⟩ : Tree V)) q = if k = q then some v else RawGet (some t) q := by
    intro q
    rw [rawGet_eq, rawGet_eq, get_spec cmpLabel_lawful hok.2, get_spec cmpLabel_lawful h.2]
    rw [show rootOf (some (⟨updAt k v t.root⟩ : Tree V)) = updAt k v t.root from rfl, he,
      show t.root = rootOf (some t) from rfl, h9]
    simp only [cmpLabel_eq_zero]
    split
    · cases lookupL cmpLabel q (RB.enumerate (rootOf (some t))) <;> rfl
    · rfl
  refine ⟨hok, hget, ?_⟩
  cases he : IsEmpty (some (⟨updAt k v t.root⟩ : Tree V)) with
  | false => rfl
  | true =>
    have := (isEmpty_iff hok).1 he k
    simp [hget] at this

end Verif.DL
