import Verif.Pipe.Rules
import Verif.Heap.ToObj

/-!
# Steps of a client beside goroutines that walk its trees

As `Heap/Obj.lean`, with a zone of memory for every starting tree: all trees that come from it lie in it, also those the client has
forgotten while a goroutine still walks them.
-/

namespace Verif.Pipe
open Verif.Heap Verif.Heap.Prog

variable {D O R : Type}

theorem wp_frame {β : Type} {W : Addr → Prop} {p : Prog D β} {Q : β → Heap D → Prop} {h : Heap D} (hp : wp W p Q h) :
    wp W p (fun x h' => Q x h' ∧ h.next ≤ h'.next ∧ (∀ a, a < h.next → ¬ W a → h'.mem a = h.mem a) ∧ (h.Ok → h'.Ok)) h := by
  refine wp_strengthen hp fun x h' hr hq => ?_
  obtain ⟨y, h2, r1, _, r5, r6⟩ := wp_run hp
  rw [hr] at r1
  cases r1
  exact ⟨hq, r5, r6, fun hk => run_ok hp hk hr⟩

/-- Invariant: `T` lists for every root its book entry and footprint, which lies in the zone of its origin; zones are disjoint, and those
of origins from `n0` on lie above `base`. -/
def ZInv (I : OImpl D O R) (n0 base m : Nat) (h : Heap D) (rs : List R) (b : Book O) (Z : Nat → Addr → Prop) : Prop :=
  ∃ T : List ((R × (Addr → Prop)) × Nat × List O), (base ≤ h.next ∧ ∀ o x, Z o x → n0 ≤ o → base ≤ x) ∧ h.Ok ∧ rs = T.map (fun t => t.1.1) ∧ b.vs = T.map (·.2) ∧
    (∀ t ∈ T, I.Obj h t.1.1 t.2.2 t.1.2 ∧ t.2.1 < b.next ∧ t.2.2.length ≤ m ∧ ∀ x, t.1.2 x → Z t.2.1 x) ∧
    (∀ o x, Z o x → x < h.next ∧ o < b.next) ∧ ∀ o o' x, Z o x → Z o' x → o = o'

theorem OInv.zinv {I : OImpl D O R} {n : Nat} (hI : I.Lawful n) {n0 base m : Nat} {s : OStore D R} {b : Book O} (hi : OInv I n0 base m s b) :
    ∃ Z, ZInv I n0 base m s.heap s.roots b Z := by
  obtain ⟨T, ⟨g1, _, g2⟩, hk, h1, h2, h3, h4⟩ := hi
  refine ⟨fun o x => ∃ t ∈ T, t.2.1 = o ∧ t.1.2 x, T, ⟨g1, ?_⟩, hk, h1, h2, ?_, ?_, ?_⟩
  · rintro o x ⟨t, ht, rfl, hx⟩ ho
    exact g2 t ht ho x hx
  · intro t ht
    obtain ⟨a, b, c⟩ := h3 t ht
    exact ⟨a, b, c, fun x hx => ⟨t, ht, rfl, hx⟩⟩
  · rintro o x ⟨t, ht, rfl, hx⟩
    exact ⟨hI.lt (h3 t ht).1 hx, (h3 t ht).2.1⟩
  · rintro o o' x ⟨t, ht, rfl, hx⟩ ⟨u, hu, rfl, hy⟩
    rcases Nat.decEq t.2.1 u.2.1 with hne | he
    · exact absurd ⟨hx, hy⟩ (h4 t ht u hu hne x)
    · exact he

theorem ZInv.mono {I : OImpl D O R} {n0 base m m' : Nat} (hm : m ≤ m') {h : Heap D} {rs : List R} {b : Book O} {Z : Nat → Addr → Prop} (hz : ZInv I n0 base m h rs b Z) :
    ZInv I n0 base m' h rs b Z := by
  obtain ⟨T, hg, hk, h1, h2, h3, h4, h5⟩ := hz
  exact ⟨T, hg, hk, h1, h2, fun t ht => by obtain ⟨a, b, c, d⟩ := h3 t ht; exact ⟨a, b, by omega, d⟩, h4, h5⟩

/-- The zones with `F` added to that of `o`. -/
def addZone (Z : Nat → Addr → Prop) (o : Nat) (F : Addr → Prop) : Nat → Addr → Prop := fun o' x => Z o' x ∨ (o' = o ∧ F x)

theorem addZone_disjoint {Z : Nat → Addr → Prop} {o nx : Nat} {F : Addr → Prop} (h5 : ∀ o o' x, Z o x → Z o' x → o = o') (hlt : ∀ o x, Z o x → x < nx)
    (hF : ∀ x, F x → nx ≤ x ∨ Z o x) : ∀ o1 o2 x, addZone Z o F o1 x → addZone Z o F o2 x → o1 = o2 := by
  have key : ∀ o1 x, Z o1 x → F x → o1 = o := by
    intro o1 x h1 h2
    rcases hF x h2 with h | h
    · have := hlt o1 x h1; omega
    · exact h5 _ _ x h1 h
  rintro o1 o2 x (h1 | ⟨rfl, h1⟩) (h2 | ⟨rfl, h2⟩)
  · exact h5 _ _ x h1 h2
  · exact key _ _ h1 h2
  · exact (key _ _ h2 h1).symm
  · rfl

/-- What a step of the client writes: new cells, and for in-place calls the zone of the tree. -/
def Writes (b : Book O) (Z : Nat → Addr → Prop) (nx : Nat) (op : SOp O) (a : Addr) : Prop :=
  nx ≤ a ∨ ∃ i o v, op = .inp i o ∧ b.vs[i]? = some v ∧ Z v.1 a

theorem addZone_above {Z : Nat → Addr → Prop} {n0 base o nx : Nat} {F : Addr → Prop} (hg : base ≤ nx ∧ ∀ o x, Z o x → n0 ≤ o → base ≤ x)
    (hF : ∀ x, F x → nx ≤ x ∨ Z o x) : ∀ o' x, addZone Z o F o' x → n0 ≤ o' → base ≤ x := by
  rintro o' x (h | ⟨rfl, h⟩) ho
  · exact hg.2 o' x h ho
  · rcases hF x h with h | h
    · exact Nat.le_trans hg.1 h
    · exact hg.2 _ x h ho

theorem zstep {I : OImpl D O R} {n n0 base m : Nat} (hI : I.Lawful n) (hm : m < n) {h : Heap D} {rs : List R} {b : Book O} {Z : Nat → Addr → Prop}
    (hz : ZInv I n0 base m h rs b Z) (op : SOp O) (hl : b.Legal2 I.cowOk I.inpOk op) :
    wp (Writes b Z h.next op) (stepP I rs op) (fun rs' h' => ∃ Z', ZInv I n0 base (m + 1) h' rs' (b.step op) Z' ∧ ∀ o x, Z o x → Z' o x) h := by
  have hz' := hz
  obtain ⟨T, hg, hk, h1, h2, h3, h4, h5⟩ := hz
  cases op with
  | fresh =>
    simp only [stepP, wp_bind, wp_pure]
    refine wp_mono (fun a ha => .inl ha) ?_ (wp_frame (hI.fresh_ok h))
    rintro p h' ⟨⟨F', r2, r4⟩, r5, r6, r7⟩
    refine ⟨addZone Z b.next F', ⟨T ++ [((p, F'), b.next, [])], ⟨Nat.le_trans hg.1 r5, addZone_above hg fun x hx => .inl (r4 x hx)⟩, r7 hk, by simp [h1], by simp [Book.step, h2], ?_, ?_, ?_⟩, fun o x hx => .inl hx⟩
    · intro t ht
      rw [List.mem_append, List.mem_singleton] at ht
      rcases ht with ht | rfl
      · obtain ⟨a, d, e, f⟩ := h3 t ht
        refine ⟨hI.frame a r5 fun x hx => ?_, by simp [Book.step]; omega, by omega, fun x hx => .inl (f x hx)⟩
        have := hI.lt a hx
        exact r6 x this (by omega)
      · exact ⟨r2, by simp [Book.step], by simp, fun x hx => .inr ⟨rfl, hx⟩⟩
    · rintro o x (hx | ⟨rfl, hx⟩)
      · obtain ⟨a, c⟩ := h4 o x hx
        exact ⟨by omega, by simp [Book.step]; omega⟩
      · exact ⟨hI.lt r2 hx, by simp [Book.step]⟩
    · exact addZone_disjoint h5 (fun o x hx => (h4 o x hx).1) fun x hx => .inl (r4 x hx)
  | drop i =>
    refine ⟨Z, ⟨T.eraseIdx i, hg, hk, by simp [h1, map_eraseIdx], by simp [Book.step, h2, map_eraseIdx], ?_, h4, h5⟩, fun _ _ hx => hx⟩
    intro t ht
    obtain ⟨a, d, e, f⟩ := h3 t (List.mem_of_mem_eraseIdx ht)
    exact ⟨a, d, by omega, f⟩
  | cow i o =>
    cases hT : T[i]? with
    | none =>
      have e1 : rs[i]? = none := by simp [h1, hT]
      have e2 : b.vs[i]? = none := by simp [h2, hT]
      simp only [stepP, e1, wp_pure, Book.step, e2]
      exact ⟨Z, hz'.mono (by omega), fun _ _ hx => hx⟩
    | some t =>
      have e1 : rs[i]? = some t.1.1 := by simp [h1, hT]
      have e2 : b.vs[i]? = some t.2 := by simp [h2, hT]
      have ht : t ∈ T := List.mem_of_getElem? hT
      obtain ⟨a1, a4, a5, a6⟩ := h3 t ht
      simp only [stepP, e1, wp_bind, wp_pure, Book.step, e2]
      refine wp_mono (fun a ha => .inl ha) ?_ (wp_frame (hI.cow_ok t.2.2 o t.1.1 h t.1.2 (by omega) (hl t.2 e2) a1))
      rintro p h' ⟨⟨F', r2, r4⟩, r5, r6, r7⟩
      refine ⟨addZone Z t.2.1 F', ⟨T ++ [((p, F'), t.2.1, o :: t.2.2)], ⟨Nat.le_trans hg.1 r5, addZone_above hg fun x hx => (r4 x hx).imp_right (a6 x)⟩, r7 hk, by simp [h1], by simp [h2], ?_, ?_, ?_⟩, fun o x hx => .inl hx⟩
      · intro u hu
        rw [List.mem_append, List.mem_singleton] at hu
        rcases hu with hu | rfl
        · obtain ⟨a, d, e, f⟩ := h3 u hu
          refine ⟨hI.frame a r5 fun x hx => ?_, d, by omega, fun x hx => .inl (f x hx)⟩
          have := hI.lt a hx
          exact r6 x this (by omega)
        · exact ⟨r2, a4, by simp; omega, fun x hx => .inr ⟨rfl, hx⟩⟩
      · rintro o x (hx | ⟨rfl, hx⟩)
        · obtain ⟨a, c⟩ := h4 o x hx
          exact ⟨by omega, c⟩
        · exact ⟨hI.lt r2 hx, a4⟩
      · refine addZone_disjoint h5 (fun o x hx => (h4 o x hx).1) fun x hx => ?_
        rcases r4 x hx with h | h
        · exact .inl h
        · exact .inr (a6 x h)
  | inp i o =>
    cases hT : T[i]? with
    | none =>
      have e1 : rs[i]? = none := by simp [h1, hT]
      have e2 : b.vs[i]? = none := by simp [h2, hT]
      simp only [stepP, e1, wp_pure, Book.step, e2]
      exact ⟨Z, hz'.mono (by omega), fun _ _ hx => hx⟩
    | some t =>
      have e1 : rs[i]? = some t.1.1 := by simp [h1, hT]
      have e2 : b.vs[i]? = some t.2 := by simp [h2, hT]
      have ht : t ∈ T := List.mem_of_getElem? hT
      obtain ⟨a1, a4, a5, a6⟩ := h3 t ht
      have hl := hl t.2 e2
      have hil : i < T.length := (List.getElem?_eq_some_iff.1 hT).1
      simp only [stepP, e1, wp_bind, wp_pure, Book.step, e2]
      refine wp_mono (fun a ha => ?_) ?_ (wp_frame (hI.inp_ok t.2.2 o t.1.1 h t.1.2 (by omega) hl.1 a1))
      · rcases ha with ha | ha
        · exact .inr ⟨i, o, t.2, rfl, e2, a6 a ha⟩
        · exact .inl ha
      rintro p h' ⟨⟨F', r2, r4⟩, r5, r6, r7⟩
      have others : ∀ u ∈ T.set i ((p, F'), t.2.1, o :: t.2.2), u = ((p, F'), t.2.1, o :: t.2.2) ∨ (u ∈ T ∧ t.2.1 ≠ u.2.1) := by
        intro u hu
        obtain ⟨j, hj⟩ := List.mem_iff_getElem?.1 hu
        rw [List.getElem?_set] at hj
        by_cases e : i = j
        · subst e
          simp [hil] at hj; exact .inl hj.symm
        · rw [if_neg e] at hj
          refine .inr ⟨List.mem_of_getElem? hj, ?_⟩
          have := hl.2 j u.2 (fun h => e h.symm) (by simp [h2, hj])
          exact fun h => this h.symm
      refine ⟨addZone Z t.2.1 F', ⟨T.set i ((p, F'), t.2.1, o :: t.2.2), ⟨Nat.le_trans hg.1 r5, addZone_above hg fun x hx => (r4 x hx).imp_right (a6 x)⟩, r7 hk, by simp [h1, List.map_set], by simp [h2, List.map_set], ?_, ?_, ?_⟩, fun o x hx => .inl hx⟩
      · intro u hu
        rcases others u hu with rfl | ⟨hu, hne⟩
        · exact ⟨r2, a4, by simp; omega, fun x hx => .inr ⟨rfl, hx⟩⟩
        · obtain ⟨a, d, e, f⟩ := h3 u hu
          refine ⟨hI.frame a r5 fun x hx => ?_, d, by omega, fun x hx => .inl (f x hx)⟩
          have := hI.lt a hx
          refine r6 x (by omega) ?_
          rintro (q | q)
          · exact hne (h5 _ _ x (a6 x q) (f x hx))
          · omega
      · rintro o x (hx | ⟨rfl, hx⟩)
        · obtain ⟨a, c⟩ := h4 o x hx
          exact ⟨by omega, c⟩
        · exact ⟨hI.lt r2 hx, a4⟩
      · refine addZone_disjoint h5 (fun o x hx => (h4 o x hx).1) fun x hx => ?_
        rcases r4 x hx with h | h
        · exact .inl h
        · exact .inr (a6 x h)

end Verif.Pipe
