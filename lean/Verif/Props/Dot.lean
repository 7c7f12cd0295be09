import Verif.Dot.Lemmas

/-! # Dot describes the tree -/

namespace Verif.Props
open Verif Verif.Dot Verif.Levels
variable {D : Type}

/-- C51: the drawn positions in breadth-first order, each once, are numbered consecutively; every position gets its node
line with its number, followed by one edge line to the numbers of its two children if it has a child. -/
theorem C51_dot (t : BTree D) : ∃ slots : List Pos,
    (∀ p, p ∈ slots ↔ Drawn t p) ∧ slots.Pairwise Before ∧
    ∃ perPos : Pos → List (Line D), dot t = some (slots.flatMap perPos) ∧
      ∀ i p, slots[i]? = some p →
        (¬ HasKids t p → perPos p = [.node i (dataAt t p)]) ∧
        (HasKids t p → ∃ a b, slots[a]? = some (p ++ [false]) ∧ slots[b]? = some (p ++ [true]) ∧
          perPos p = [.node i (dataAt t p), .edge i a b]) := by
  obtain ⟨slots, hI, hd⟩ := dot_spec t
  have hs : slots.Pairwise Before := by simpa using hI.sorted
  have hnd : slots.Nodup := hs.imp (fun {a b} h (e : a = b) => before_irrefl a (by rw [← e] at h; exact h))
  refine ⟨slots, hI.drawn, hs, linesAt t slots, hd, ?_⟩
  intro i p hi
  have hidx : ∀ j q, slots[j]? = some q → slots.idxOf q = j := by
    intro j q hq
    rw [List.getElem?_eq_some_iff] at hq
    obtain ⟨hj, rfl⟩ := hq
    exact hnd.idxOf_getElem j hj
  constructor
  · intro hk
    have hn : ((subAt t (p ++ [false])).isNil && (subAt t (p ++ [true])).isNil) = true := by
      have := fun h => hk ((hasKids_iff t p).2 h); simpa using this
    simp [linesAt, hidx i p hi, hn]
  · intro hk
    have hn := (hasKids_iff t p).1 hk
    have hm : ∀ b, p ++ [b] ∈ slots := fun b => (hI.drawn _).2 (.inr ⟨p, b, rfl, hk⟩)
    obtain ⟨a, ha⟩ := List.getElem?_of_mem (hm false)
    obtain ⟨b, hb⟩ := List.getElem?_of_mem (hm true)
    refine ⟨a, b, ha, hb, ?_⟩
    simp [linesAt, hidx i p hi, hn, hidx a _ ha, hidx b _ hb]

/-- C51: the lines determine the tree, so nothing is lost or confused in the drawing. -/
theorem C51_determines (t u : BTree D) (h : dot t = dot u) : t = u := by
  obtain ⟨L, hL⟩ : ∃ L, dot t = some L := (dot_spec t).elim fun _ h => ⟨_, h.2⟩
  have main : ∀ (t u : BTree D), dot t = some L → dot u = some L → ∀ p, Drawn t p → Drawn u p ∧ dataAt t p = dataAt u p := by
    intro t u ht hu
    obtain ⟨st, d1, s1, f1, e1, n1⟩ := C51_dot t
    obtain ⟨su, d2, s2, f2, e2, n2⟩ := C51_dot u
    have e1 : L = st.flatMap f1 := by rw [ht] at e1; simpa using e1
    have e2 : L = su.flatMap f2 := by rw [hu] at e2; simpa using e2
    have hroot : ∀ (s : List Pos), [] ∈ s → s.Pairwise Before → s[0]? = some [] := by
      intro s hm hs
      cases s with
      | nil => simp at hm
      | cons x r =>
        rcases List.mem_cons.1 hm with rfl | hm
        · simp
        · have := (List.pairwise_cons.1 hs).1 [] hm
          rcases this with h | ⟨h1, h2⟩
          · simp at h
          · cases x <;> simp [LeftOf] at h1 h2
    have hline : ∀ (i : Nat) p, st[i]? = some p → ∀ ln ∈ f1 p, ∃ (j : Nat) (q : Pos), su[j]? = some q ∧ ln ∈ f2 q := by
      intro i p hi ln hln
      have : ln ∈ su.flatMap f2 := by
        rw [← e2, e1]
        exact List.mem_flatMap.2 ⟨p, List.mem_of_getElem? hi, hln⟩
      obtain ⟨q, hq, hl⟩ := List.mem_flatMap.1 this
      obtain ⟨j, hj⟩ := List.getElem?_of_mem hq
      exact ⟨j, q, hj, hl⟩
    have hnum : ∀ p, Drawn t p → ∃ i : Nat, st[i]? = some p ∧ su[i]? = some p := by
      intro p
      induction hn : p.length generalizing p with
      | zero =>
        intro hp
        obtain rfl := List.length_eq_zero_iff.1 hn
        exact ⟨0, hroot st ((d1 _).2 hp) s1, hroot su ((d2 _).2 (.inl rfl)) s2⟩
      | succ n ih =>
        intro hp
        rcases hp with rfl | ⟨q, b, rfl, hk⟩
        · simp at hn
        have hq : Drawn t q := by
          obtain ⟨slots, hI, _⟩ := dot_spec t
          rcases List.eq_nil_or_concat q with rfl | ⟨r, c, rfl⟩
          · exact .inl rfl
          · refine .inr ⟨r, c, by simp, ?_⟩
            rw [hasKids_iff] at hk ⊢
            simp only [List.concat_eq_append, subAt_snoc] at hk ⊢
            cases hx : subAt t r with
            | nil => simp [hx] at hk
            | node d l r => cases c <;> cases l <;> cases r <;> simp_all
        obtain ⟨i, hi1, hi2⟩ := ih q (by simpa using hn) hq
        obtain ⟨a, c, ha, hc, hf⟩ := (n1 i q hi1).2 hk
        obtain ⟨j, q', hj, hl⟩ := hline i q hi1 (.edge i a c) (by rw [hf]; simp)
        by_cases hk' : HasKids u q'
        · obtain ⟨a', c', ha', hc', hf'⟩ := (n2 j q' hj).2 hk'
          rw [hf'] at hl
          simp only [List.mem_cons, reduceCtorEq, List.not_mem_nil, or_false, false_or, Line.edge.injEq] at hl
          obtain ⟨rfl, rfl, rfl⟩ := hl
          rw [hi2] at hj
          obtain rfl : q = q' := by simpa using hj
          cases b
          · exact ⟨a, ha, ha'⟩
          · exact ⟨c, hc, hc'⟩
        · rw [(n2 j q' hj).1 hk'] at hl; simp at hl
    intro p hp
    obtain ⟨i, hi1, hi2⟩ := hnum p hp
    refine ⟨(d2 p).1 (List.mem_of_getElem? hi2), ?_⟩
    have hin : Line.node i (dataAt t p) ∈ f1 p := by
      by_cases hk : HasKids t p
      · obtain ⟨a, b, _, _, hf⟩ := (n1 i p hi1).2 hk
        rw [hf]; simp
      · rw [(n1 i p hi1).1 hk]; simp
    obtain ⟨j, q, hj, hl⟩ := hline i p hi1 _ hin
    have : i = j ∧ dataAt t p = dataAt u q := by
      by_cases hk : HasKids u q
      · obtain ⟨a, b, _, _, hf⟩ := (n2 j q hj).2 hk
        rw [hf] at hl; simpa using hl
      · rw [(n2 j q hj).1 hk] at hl; simpa using hl
    obtain ⟨rfl, e⟩ := this
    rw [hi2] at hj
    obtain rfl : p = q := by simpa using hj
    exact e
  have hnone : ∀ (t : BTree D) p, ¬ Drawn t p → dataAt t p = none := by
    intro t p hp
    rcases List.eq_nil_or_concat p with rfl | ⟨q, b, rfl⟩
    · exact absurd (.inl rfl) hp
    · simp only [List.concat_eq_append] at *
      have : subAt t (q ++ [b]) = .nil := by
        apply Classical.byContradiction
        intro hne
        refine hp (.inr ⟨q, b, rfl, ?_⟩)
        cases b
        · exact .inl hne
        · exact .inr hne
      simp [dataAt, this]
  have hall : ∀ p, dataAt t p = dataAt u p := by
    intro p
    by_cases h1 : Drawn t p
    · exact (main t u hL (h ▸ hL) p h1).2
    · by_cases h2 : Drawn u p
      · exact ((main u t (h ▸ hL) hL p h2).2).symm
      · rw [hnone t p h1, hnone u p h2]
  clear main hL h
  induction t generalizing u with
  | nil =>
    cases u with
    | nil => rfl
    | node d l r => simpa [dataAt, subAt] using hall []
  | node d l r ihl ihr =>
    cases u with
    | nil => simpa [dataAt, subAt] using hall []
    | node d' l' r' =>
      have e0 : d = d' := by simpa [dataAt, subAt] using hall []
      rw [e0, ihl l' (fun p => by simpa [dataAt, subAt] using hall (false :: p)), ihr r' (fun p => by simpa [dataAt, subAt] using hall (true :: p))]

/-- The same for the public `Dot` of strtree and dltree. -/
theorem C51_trees {V : Type} :
    (∀ t u : Strtree.Tree V, strtreeDot (some t) = strtreeDot (some u) → t.root = u.root) ∧
    (∀ t u : DL.Tree V, dltreeDot (some t) = dltreeDot (some u) → t = u) := by
  refine ⟨fun t u h => C51_determines _ _ h, fun t u h => ?_⟩
  cases t; cases u
  rw [DL.Tree.mk.injEq]; exact C51_determines _ _ h

/-- A root with a right child that has two children: seven lines, numbers 0 to 4. -/
example : dot (.node 'a' .nil (.node 'b' (.node 'c' .nil .nil) (.node 'd' .nil .nil))) = some
    [.node 0 (some 'a'), .edge 0 1 2, .node 1 none, .node 2 (some 'b'), .edge 2 3 4, .node 3 (some 'c'), .node 4 (some 'd')] := by
  decide +kernel

end Verif.Props
