import Verif.Spec.Merge
import Verif.Spec.OrdMap

/-! # Lemmas on merging maps entry by entry -/

namespace Verif.Merge
variable {K Q V : Type}

/-- Store entries one by one over a map; the first of the list last. -/
def storeAll [DecidableEq Q] (m : Q → Option V) : List (Q × V) → Q → Option V
  | [], q => m q
  | (k, v) :: l, q => if q = k then some v else storeAll m l q

theorem storeAll_eq [DecidableEq Q] {m m2 : Q → Option V} {l : List (Q × V)} (h1 : ∀ e ∈ l, m2 e.1 = some e.2) (q : Q) :
    storeAll m l q = if q ∈ l.map Prod.fst then m2 q else m q := by
  induction l with
  | nil => rfl
  | cons e l ih =>
    obtain ⟨k, v⟩ := e
    rw [storeAll, ih fun e he => h1 e (by simp [he])]
    by_cases hk : q = k
    · subst hk; simp [h1 (q, v) (by simp)]
    · rw [if_neg hk]
      by_cases h : q ∈ l.map Prod.fst
      · rw [if_pos h, if_pos (show q ∈ ((k, v) :: l).map Prod.fst from List.mem_cons_of_mem _ h)]
      · rw [if_neg h, if_neg]
        rintro (_ | ⟨_, h'⟩)
        · exact hk rfl
        · exact h h'

/-- Storing all entries of a map over another map. -/
theorem storeAll_or [DecidableEq Q] {m m2 : Q → Option V} {l : List (Q × V)} (h : ∀ q v, (q, v) ∈ l ↔ m2 q = some v) (q : Q) :
    storeAll m l q = (m2 q).or (m q) := by
  rw [storeAll_eq (m2 := m2) fun e he => (h e.1 e.2).1 he]
  cases h2 : m2 q with
  | none =>
    rw [if_neg]
    · rfl
    · rintro hq
      obtain ⟨⟨k, v⟩, he, rfl⟩ := List.mem_map.1 hq
      rw [(h k v).1 he] at h2; cases h2
  | some v =>
    rw [if_pos (List.mem_map.2 ⟨(q, v), (h q v).2 h2, rfl⟩)]; rfl

/-- `l` lists the map `m`, keys being written as `R` says. -/
structure Listing (R : K → Q → Prop) (l : List (K × V)) (m : Q → Option V) : Prop where
  sound : ∀ x ∈ l, ∃ q, R x.1 q ∧ m q = some x.2
  complete : ∀ q v, m q = some v → ∃ x ∈ l, R x.1 q ∧ x.2 = v

theorem Listing.mem {R : K → Q → Prop} (hR1 : ∀ k q q', R k q → R k q' → q = q') (hR2 : ∀ k k' q, R k q → R k' q → k = k')
    {l : List (K × V)} {m : Q → Option V} (h : Listing R l m) {k : K} {q : Q} (hk : R k q) (v : V) : (k, v) ∈ l ↔ m q = some v := by
  constructor
  · intro hx
    obtain ⟨q', h1, h2⟩ := h.sound _ hx
    rw [hR1 _ _ _ hk h1]; exact h2
  · intro hm
    obtain ⟨x, h1, h2, h3⟩ := h.complete q v hm
    rw [hR2 _ _ _ hk h2, ← h3]; exact h1

theorem overlay {R : K → Q → Prop} (hR1 : ∀ k q q', R k q → R k q' → q = q') (hR2 : ∀ k k' q, R k q → R k' q → k = k')
    {l1 l2 l : List (K × V)} {m1 m2 m : Q → Option V} (h1 : Listing R l1 m1) (h2 : Listing R l2 m2) (h : Listing R l m)
    (hm : ∀ q, m q = (m2 q).or (m1 q)) : Overlay l1 l2 l := by
  rintro ⟨k, v⟩
  have key : ∀ q, R k q → ((k, v) ∈ l ↔ (k, v) ∈ l2 ∨ ((k, v) ∈ l1 ∧ ∀ y ∈ l2, y.1 ≠ k)) := by
    intro q hk
    rw [h.mem hR1 hR2 hk, h1.mem hR1 hR2 hk, h2.mem hR1 hR2 hk, hm]
    cases e : m2 q with
    | some v' =>
      simp only [Option.some_or, Option.some.injEq]
      refine ⟨.inl, ?_⟩
      rintro (h3 | ⟨_, h3⟩)
      · exact h3
      · exact absurd rfl (h3 (k, v') ((h2.mem hR1 hR2 hk v').2 e))
    | none =>
      simp only [Option.none_or, reduceCtorEq, false_or]
      refine ⟨fun h3 => ⟨h3, ?_⟩, fun h3 => h3.1⟩
      rintro ⟨k', v'⟩ hy rfl
      rw [(h2.mem hR1 hR2 hk v').1 hy] at e; cases e
  constructor
  · intro hx
    obtain ⟨q, hq, _⟩ := h.sound _ hx
    exact (key q hq).1 hx
  · intro hx
    rcases hx with hx | ⟨hx, hn⟩
    · obtain ⟨q, hq, _⟩ := h2.sound _ hx
      exact (key q hq).2 (.inl hx)
    · obtain ⟨q, hq, _⟩ := h1.sound _ hx
      exact (key q hq).2 (.inr ⟨hx, hn⟩)

/-- A listing in a strict order is determined by its entries. -/
theorem sorted_unique {α : Type} {R : α → α → Prop} (ha : ∀ a b, R a b → ¬ R b a) {l l' : List α} (h : l.Pairwise R) (h' : l'.Pairwise R)
    (hm : ∀ x, x ∈ l ↔ x ∈ l') : l = l' := by
  induction l generalizing l' with
  | nil =>
    cases l' with
    | nil => rfl
    | cons b l' => exact absurd ((hm b).2 (by simp)) (by simp)
  | cons a l ih =>
    cases l' with
    | nil => exact absurd ((hm a).1 (by simp)) (by simp)
    | cons b l' =>
      rw [List.pairwise_cons] at h h'
      have hab : a = b := by
        rcases List.mem_cons.1 ((hm a).1 (by simp)) with e | e
        · exact e
        · rcases List.mem_cons.1 ((hm b).2 (by simp)) with f | f
          · exact f.symm
          · exact absurd (h'.1 a e) (ha _ _ (h.1 b f))
      subst hab
      rw [ih h.2 h'.2 fun x => ?_]
      have hx := hm x
      simp only [List.mem_cons] at hx
      constructor
      · intro m
        rcases hx.1 (.inr m) with rfl | m'
        · exact absurd (h.1 x m) (fun r => ha _ _ r r)
        · exact m'
      · intro m
        rcases hx.2 (.inr m) with rfl | m'
        · exact absurd (h'.1 x m) (fun r => ha _ _ r r)
        · exact m'

end Verif.Merge
