import Verif.Strtree.Lemmas

/-! # Properties C11, C12, C15-C19 of strtree (functional part) -/

namespace Verif.Props
open Verif.Strtree
variable {V : Type} [Inhabited V]

/-- The trees the public constructors give for ordering `cmp`: `NewTreeWithCustomComparison(cmp)`, and for
`strings.Compare` also `NewTree()` and the nil tree. -/
def Start (cmp : Bytes → Bytes → Int) (t0 : Option (Tree V)) : Prop :=
  t0 = NewTreeWithCustomComparison cmp ∨ (cmp = compareBytes ∧ (t0 = NewTree ∨ t0 = none))

omit [Inhabited V] in
theorem Start.like {cmp : Bytes → Bytes → Int} {t0 : Option (Tree V)} (h : Start cmp t0) : Like cmp t0 .nil := by
  rcases h with rfl | ⟨rfl, rfl | rfl⟩ <;> exact ⟨rfl, rfl⟩

/-- C11: Get returns what the history left under the key. -/
theorem C11_map {cmp : Bytes → Bytes → Int} (hc : LawfulCmp cmp) {t0 : Option (Tree V)} (h0 : Start cmp t0)
    (ops : List (KOp Bytes V)) : ∃ t, run t0 ops = some t ∧ ∀ q, Get t q = lastWriteBy cmp ops q := by
  obtain ⟨t, r, h1, h2, h3, _⟩ := run_like h0.like hc.refl ops
  exact ⟨t, h1, fun q => by rw [(like_ops h3).1, RB.get_run hc h2]⟩

/-- Ordering by length, equal lengths are equal keys: a preorder that is not an order. -/
def byLen (a b : Bytes) : Int := (a.length : Int) - b.length

theorem byLen_lawful : LawfulCmp byLen where
  swap a b := by unfold byLen; omega
  trans a b c := by unfold byLen; omega

example : (run (NewTreeWithCustomComparison byLen) [.insert [3] (7 : Nat), .delete [9, 9], .insert [1, 2] 6, .insert [1] 5]).map
    (fun t => (Get t [8], Get t [8, 8])) = some (some 7, none) := by decide +kernel

/-- C12: strictly increasing keys. -/
theorem C12_sorted {cmp : Bytes → Bytes → Int} (hc : LawfulCmp cmp) {t0 : Option (Tree V)} (h0 : Start cmp t0)
    (ops : List (KOp Bytes V)) : ∃ t, run t0 ops = some t ∧ (Enumerate t).Pairwise fun a b => cmp a.1 b.1 < 0 := by
  obtain ⟨t, r, h1, h2, h3, _⟩ := run_like h0.like hc.refl ops
  exact ⟨t, h1, by rw [(like_ops h3).2.1]; exact (RB.run_spec hc h2).1⟩

/-- C12, C17: exactly the stored pairs, each key in the spelling of its first insertion. -/
theorem C12_complete {cmp : Bytes → Bytes → Int} (hc : LawfulCmp cmp) {t0 : Option (Tree V)} (h0 : Start cmp t0)
    (ops : List (KOp Bytes V)) : ∃ t, run t0 ops = some t ∧
      ∀ k v, (k, v) ∈ Enumerate t ↔ firstSpelling cmp ops k = some k ∧ lastWriteBy cmp ops k = some v := by
  obtain ⟨t, r, h1, h2, h3, _⟩ := run_like h0.like hc.refl ops
  refine ⟨t, h1, fun k v => ?_⟩
  obtain ⟨h4, h5⟩ := RB.run_spec hc h2
  rw [(like_ops h3).2.1]
  have h6 := h4.lookupL_iff hc k (k, v)
  rw [h5] at h6
  have h7 : ((k, v) ∈ RB.enumerate r ↔ (k, v) ∈ RB.enumerate r ∧ cmp k k = 0) := by simp [hc.refl]
  rw [h7, ← h6]
  cases firstSpelling cmp ops k <;> cases lastWriteBy cmp ops k <;> simp

/-- C12: no key is listed twice, even up to the comparison. -/
theorem C12_nodup {cmp : Bytes → Bytes → Int} (hc : LawfulCmp cmp) {t0 : Option (Tree V)} (h0 : Start cmp t0)
    (ops : List (KOp Bytes V)) : ∃ t, run t0 ops = some t ∧
      ∀ i j (hi : i < (Enumerate t).length) (hj : j < (Enumerate t).length),
        cmp (Enumerate t)[i].1 (Enumerate t)[j].1 = 0 → i = j := by
  obtain ⟨t, h1, h2⟩ := C12_sorted hc h0 ops
  refine ⟨t, h1, fun i j hi hj h => ?_⟩
  rcases Nat.lt_trichotomy i j with hlt | heq | hgt
  · have := List.pairwise_iff_getElem.1 h2 i j hi hj hlt; omega
  · exact heq
  · have := List.pairwise_iff_getElem.1 h2 j i hj hi hgt
    have := hc.eq_comm.1 h; omega

example : (run (V := Nat) NewTree [.insert [3] 1, .insert [1] 2, .insert [2] 3, .insert [1] 4, .insert [1, 0] 5]).map Enumerate =
    some [([1], 2), ([1, 0], 5), ([2], 3), ([3], 1)] := by decide +kernel

example : (run (NewTreeWithCustomComparison byLen) [.insert [2] (4 : Nat), .insert [1] 2]).map Enumerate =
    some [([1], 4)] := by decide +kernel

/-- C15: reachable trees are red-black; this needs only that the comparison calls each key equal to itself. -/
theorem C15_red_black {cmp : Bytes → Bytes → Int} (hrefl : ∀ k, cmp k k = 0) {t0 : Option (Tree V)} (h0 : Start cmp t0)
    (ops : List (KOp Bytes V)) : ∃ t, run t0 ops = some t ∧ IsRedBlack RB.RD.red (root t) := by
  obtain ⟨t, r, h1, h2, h3, h4⟩ := run_like h0.like hrefl ops
  exact ⟨t, h1, by rw [(like_ops h3).2.2.2.1]; exact h4.isRedBlack⟩

/-- C15: hence logarithmic height. -/
theorem C15_height {cmp : Bytes → Bytes → Int} (hrefl : ∀ k, cmp k k = 0) {t0 : Option (Tree V)} (h0 : Start cmp t0)
    (ops : List (KOp Bytes V)) : ∃ t, run t0 ops = some t ∧
      (root t).height ≤ 2 * Nat.log2 ((Enumerate t).length + 1) := by
  obtain ⟨t, r, h1, h2, h3, h4⟩ := run_like h0.like hrefl ops
  refine ⟨t, h1, ?_⟩
  rw [(like_ops h3).2.2.2.1, (like_ops h3).2.1, RB.length_enumerate]
  exact h4.height_le

example : (run (V := Nat) NewTree [.delete [2], .insert [6] 0, .insert [5] 0, .insert [4] 0, .insert [3] 0, .insert [2] 0,
      .insert [1] 0]).map (fun t => (paths (root t)).map (·.map fun d => (d.key, d.red))) =
    some [[([4], false), ([1], false)], [([4], false), ([1], false), ([3], true)], [([4], false), ([1], false), ([3], true)],
     [([4], false), ([5], false)], [([4], false), ([5], false), ([6], true)], [([4], false), ([5], false), ([6], true)]] := by
  decide +kernel

/-- C16: Delete reports whether the key was there. -/
theorem C16_flag {cmp : Bytes → Bytes → Int} (hc : LawfulCmp cmp) {t0 : Option (Tree V)} (h0 : Start cmp t0)
    (ops : List (KOp Bytes V)) (k : Bytes) : ∃ t, run t0 ops = some t ∧ (Delete t k).2 = (Get t k).isSome := by
  obtain ⟨t, r, h1, h2, h3, h4⟩ := run_like h0.like hc.refl ops
  refine ⟨t, h1, ?_⟩
  have h5 := (RB.run_spec hc h2).1
  have h6 := (RB.del_spec hc h5 k).2
  rw [((like_ops h3).2.2.2.2.2 k).2, (like_ops h3).1, RB.get_spec hc h5, Option.isSome_map, Bool.eq_iff_iff, h6,
    Option.isSome_iff_exists]
  constructor
  · rintro ⟨a, ha, h⟩; exact ⟨a, (h5.lookupL_iff hc k a).2 ⟨ha, h⟩⟩
  · rintro ⟨a, ha⟩; exact ⟨a, (h5.lookupL_iff hc k a).1 ha⟩

/-- C16: Delete keeps exactly the pairs with other keys, in the same order. -/
theorem C16_rest {cmp : Bytes → Bytes → Int} (hc : LawfulCmp cmp) {t0 : Option (Tree V)} (h0 : Start cmp t0)
    (ops : List (KOp Bytes V)) (k : Bytes) : ∃ t, run t0 ops = some t ∧
      Enumerate (Delete t k).1 = (Enumerate t).filter fun p => decide (cmp p.1 k ≠ 0) := by
  obtain ⟨t, r, h1, h2, h3, h4⟩ := run_like h0.like hc.refl ops
  refine ⟨t, h1, ?_⟩
  have h5 := (RB.run_spec hc h2).1
  rw [(like_ops ((like_ops h3).2.2.2.2.2 k).1).2.1, (like_ops h3).2.1, (RB.del_spec hc h5 k).1, RB.eraseL_eq_filter hc h5]

/-- C16: a key that is absent leaves the listing as it was. -/
theorem C16_absent {cmp : Bytes → Bytes → Int} (hc : LawfulCmp cmp) {t0 : Option (Tree V)} (h0 : Start cmp t0)
    (ops : List (KOp Bytes V)) (k : Bytes) : ∃ t, run t0 ops = some t ∧
      (Get t k = none → Enumerate (Delete t k).1 = Enumerate t) := by
  obtain ⟨t, h1, h2⟩ := C16_rest hc h0 ops k
  obtain ⟨t', r, h1', h3, h4, h5⟩ := run_like h0.like hc.refl ops
  rw [h1] at h1'; cases h1'
  refine ⟨t, h1, fun hg => ?_⟩
  rw [h2, List.filter_eq_self]
  intro a ha
  have h5 := (RB.run_spec hc h3).1
  rw [(like_ops h4).1, RB.get_spec hc h5] at hg
  rw [(like_ops h4).2.1] at ha
  simp only [decide_eq_true_eq]
  intro hx
  rw [(h5.lookupL_iff hc k a).2 ⟨ha, hx⟩] at hg
  cases hg

example : ∃ t, run (V := Nat) NewTree [.insert [4] 0, .insert [3] 7, .insert [2] 0, .insert [1] 0] = some t ∧
    (Delete t [3]).2 = true ∧ Enumerate (Delete t [3]).1 = [([1], 0), ([2], 0), ([4], 0)] ∧
    (Delete t [9]).2 = false ∧ (Enumerate (Delete t [9]).1).length = 4 :=
  ⟨_, rfl, by decide +kernel⟩

/-- C17: Insert of an equal key replaces the value and nothing else; spelling and order stay. -/
theorem C17_spelling {cmp : Bytes → Bytes → Int} (hc : LawfulCmp cmp) {t0 : Option (Tree V)} (h0 : Start cmp t0)
    (ops : List (KOp Bytes V)) (k : Bytes) (v : V) : ∃ t, run t0 ops = some t ∧
      ((Get t k).isSome = true → ∃ t', Insert t k v = some t' ∧
        Enumerate t' = (Enumerate t).map fun p => if cmp p.1 k = 0 then (p.1, v) else p) := by
  obtain ⟨t, r, h1, h2, h3, h4⟩ := run_like h0.like hc.refl ops
  refine ⟨t, h1, fun hg => ?_⟩
  have h5 := (RB.run_spec hc h2).1
  obtain ⟨r', h6, h7⟩ := RB.insert_balanced (cmp := cmp) h4 k v (hc.refl k)
  obtain ⟨t', h8, h9⟩ := (like_ops h3).2.2.2.2.1 k v r' h6
  refine ⟨t', h8, ?_⟩
  rw [(like_ops h9).2.1, (like_ops h3).2.1, RB.insert_spec hc h6 h5, RB.insertL_eq_map hc h5]
  rw [(like_ops h3).1, RB.get_spec hc h5, Option.isSome_map, Option.isSome_iff_exists] at hg
  obtain ⟨a, ha⟩ := hg
  exact ⟨a, (h5.lookupL_iff hc k a).1 ha⟩

example : ∃ t t', run (NewTreeWithCustomComparison byLen) [.insert [1, 1] (1 : Nat), .insert [2] 2] = some t ∧
    Insert t [7] 9 = some t' ∧ Enumerate t' = [([2], 9), ([1, 1], 1)] := ⟨_, _, rfl, rfl, by decide +kernel⟩

/-- C18: no history panics or runs out of iterations, whatever the comparison answers for different keys. -/
theorem C18_no_panic {cmp : Bytes → Bytes → Int} (hrefl : ∀ k, cmp k k = 0) {t0 : Option (Tree V)} (h0 : Start cmp t0)
    (ops : List (KOp Bytes V)) : (run t0 ops).isSome = true := by
  obtain ⟨t, r, h1, _⟩ := run_like h0.like hrefl ops
  simp [h1]

/-- A comparison that is far from a preorder but reflexive. -/
def odd (a b : Bytes) : Int := if a = b then 0 else if (a ++ b).length % 3 = 0 then -1 else 1

example : ∀ k, odd k k = 0 := by intro k; simp [odd]

example : (run (NewTreeWithCustomComparison odd) [.delete [1], .insert [1, 2] (1 : Nat), .insert [3] 2, .insert [1] 3, .insert [] 4]).map
    (fun t => (Enumerate t).length) = some 3 := by decide +kernel

omit [Inhabited V] in
/-- C19: IsEmpty agrees with Enumerate. -/
theorem C19_isEmpty (t : Option (Tree V)) : IsEmpty t = true ↔ Enumerate t = [] := by
  cases t with
  | none => simp [IsEmpty, Enumerate]
  | some t =>
    simp only [IsEmpty, Enumerate]
    cases t.root <;> simp [RB.enumerate]

/-- C19: the nil tree answers every history like the empty tree ordered by `strings.Compare`. -/
theorem C19_nil (ops : List (KOp Bytes V)) : ∃ t t', run none ops = some t ∧ run NewTree ops = some t' ∧
    Enumerate t = Enumerate t' ∧ (∀ k, Get t k = Get t' k) ∧ (∀ k, (Delete t k).2 = (Delete t' k).2) ∧ IsEmpty t = IsEmpty t' := by
  obtain ⟨t, r, h1, h2, h3, _⟩ := run_like (V := V) (Start.like (cmp := compareBytes) (t0 := none) (.inr ⟨rfl, .inr rfl⟩))
    compareBytes_lawful.refl ops
  obtain ⟨t', r', h1', h2', h3', _⟩ := run_like (V := V) (Start.like (cmp := compareBytes) (t0 := NewTree) (.inr ⟨rfl, .inl rfl⟩))
    compareBytes_lawful.refl ops
  rw [h2] at h2'; cases h2'
  have a := like_ops h3
  have b := like_ops h3'
  exact ⟨t, t', h1, h1', by rw [a.2.1, b.2.1], fun k => by rw [a.1, b.1], fun k => by rw [(a.2.2.2.2.2 k).2, (b.2.2.2.2.2 k).2],
    by rw [a.2.2.1, b.2.2.1]⟩

example : (run (V := Nat) none [.delete [1], .insert [2] 1, .delete [1]]).map Enumerate = some [([2], 1)] := by decide +kernel

end Verif.Props
