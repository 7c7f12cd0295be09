import Verif.Heap.Reach
import Verif.Heap.Interleave

/-!
# Consequences of the history theorem for any implementation
-/

namespace Verif.Heap
open Prog ATree
variable {D O : Type} {I : Impl D O} {n : Nat}

/-- Every held root represents the tree of its chain. -/
theorem client_history (hI : I.Lawful n) (ops : List (SOp O)) (hn : ops.length ≤ n) (hl : (Book.init : Book O).LegalAll I.inpOk ops) :
    ∃ s, Store.init.exec I ops = .ok s ∧ s.heap.Ok ∧ s.roots.length = (Book.init.exec ops).vs.length ∧
      ∀ (i : Nat) r v, s.roots[i]? = some r → (Book.init.exec ops).vs[i]? = some v →
        ∃ A, r = ptr A ∧ Rep s.heap A ∧ erase A = I.run v.2 ∧ (∀ x, cnt x A ≤ 1) ∧ v.2.length ≤ n := by
  obtain ⟨s, e, T, hk, h1, h2, h3, h4⟩ := exec_inv hI (inv_init I) ops (by omega) hl
  refine ⟨s, e, hk, by simp [h1, h2], fun i r v hr hv => ?_⟩
  rw [h1, List.getElem?_map] at hr
  rw [h2, List.getElem?_map] at hv
  cases hT : T[i]? with
  | none => simp [hT] at hr
  | some t =>
    simp only [hT, Option.map_some, Option.some.injEq] at hr hv
    subst hr hv
    obtain ⟨a1, a2, a3, _, a5⟩ := h3 t (List.mem_of_getElem? hT)
    exact ⟨t.1, rfl, a1, a2, a3, by omega⟩

/-- Copy-on-write calls leave what earlier roots represent. -/
theorem client_persist (hI : I.Lawful n) (pre post : List (SOp O)) (hn : pre.length + post.length ≤ n) (hc : CowOnly post)
    (hl : (Book.init : Book O).LegalAll I.inpOk pre) :
    ∃ s s', Store.init.exec I pre = .ok s ∧ s.exec I post = .ok s' ∧
      ∀ (i : Nat) r, s.roots[i]? = some r → s'.roots[i]? = some r ∧ ∃ (l : List O) (A A' : ATree D),
        r = ptr A ∧ r = ptr A' ∧ Rep s.heap A ∧ Rep s'.heap A' ∧ erase A = I.run l ∧ erase A' = I.run l ∧ l.length ≤ n := by
  obtain ⟨s, e1, i1⟩ := exec_inv hI (inv_init I) pre (by omega) hl
  obtain ⟨s', e2, i2⟩ := exec_inv hI i1 post (by omega) (cowOnly_legal hc _)
  obtain ⟨T, _, a1, a2, a3, _⟩ := i1
  obtain ⟨T', _, b1, b2, b3, _⟩ := i2
  refine ⟨s, s', e1, e2, fun i r hr => ?_⟩
  have hr' := store_cowOnly hc e2 hr
  refine ⟨hr', ?_⟩
  rw [a1, List.getElem?_map] at hr
  cases hT : T[i]? with
  | none => simp [hT] at hr
  | some t =>
    have hv : (Book.init.exec pre).vs[i]? = some t.2 := by simp [a2, hT]
    have hv' := book_cowOnly hc _ hv
    rw [b2, List.getElem?_map] at hv'
    rw [b1, List.getElem?_map] at hr'
    cases hT' : T'[i]? with
    | none => simp [hT'] at hr'
    | some t' =>
      simp only [hT, Option.map_some, Option.some.injEq] at hr
      simp only [hT', Option.map_some, Option.some.injEq] at hr' hv'
      obtain ⟨c1, c2, _, _, c5⟩ := a3 t (List.mem_of_getElem? hT)
      obtain ⟨d1, d2, _, _, _⟩ := b3 t' (List.mem_of_getElem? hT')
      rw [hv'] at d2
      exact ⟨t.2.2, t.1, t'.1, hr.symm, hr'.symm, c1, d1, c2, d2, by omega⟩

/-- An in-place call on an exclusively held tree, and the copy-on-write call on the same tree. -/
theorem client_inplace (hI : I.Lawful n) (ops : List (SOp O)) (hn : ops.length < n) (hl : (Book.init : Book O).LegalAll I.inpOk ops) (i : Nat) (o : O)
    (hi : (Book.init.exec ops).Legal I.inpOk (.inp i o)) :
    ∃ s, Store.init.exec I ops = .ok s ∧ ∀ r v, s.roots[i]? = some r → (Book.init.exec ops).vs[i]? = some v → (o :: v.2).length ≤ n ∧
      (∃ r' h' A', (I.inp o r).run s.heap = .ok (r', h') ∧ r' = ptr A' ∧ Rep h' A' ∧ erase A' = I.run (o :: v.2) ∧
        (∀ (j : Nat) q u, j ≠ i → s.roots[j]? = some q → (Book.init.exec ops).vs[j]? = some u →
          ∃ B, q = ptr B ∧ Rep h' B ∧ erase B = I.run u.2 ∧ u.2.length ≤ n) ∧
        ∀ a, a < s.heap.next → ¬ Reach s.heap r a → h'.mem a = s.heap.mem a) ∧
      ∃ r' h' A', (I.cow o r).run s.heap = .ok (r', h') ∧ r' = ptr A' ∧ Rep h' A' ∧ erase A' = I.run (o :: v.2) ∧
        ∀ a, a < s.heap.next → h'.mem a = s.heap.mem a := by
  obtain ⟨s, e, T, hk, h1, h2, h3, h4⟩ := exec_inv hI (inv_init I) ops (by omega) hl
  refine ⟨s, e, fun r v hr hv => ?_⟩
  rw [h1, List.getElem?_map] at hr
  cases hT : T[i]? with
  | none => simp [hT] at hr
  | some t =>
    have hv2 := hv
    rw [h2, List.getElem?_map] at hv
    simp only [hT, Option.map_some, Option.some.injEq] at hr hv
    subst hr hv
    obtain ⟨a1, a2, a3, _, a5⟩ := h3 t (List.mem_of_getElem? hT)
    refine ⟨by simp only [List.length_cons]; omega, ?_, ?_⟩
    · obtain ⟨p, h', r1, ⟨A', rfl, r2, r3, r4⟩, r5, r6⟩ := Prog.wp_run (hI.inp_ok t.2.2 o t.1 s.heap (by omega) hi.1 a1 a2 a3)
      refine ⟨_, h', A', r1, rfl, r2, r3, ?_, ?_⟩
      · intro j q u hj hq hu
        have hu2 := hu
        rw [h1, List.getElem?_map] at hq
        rw [h2, List.getElem?_map] at hu
        cases hTj : T[j]? with
        | none => simp [hTj] at hq
        | some y =>
          simp only [hTj, Option.map_some, Option.some.injEq] at hq hu
          subst hq hu
          obtain ⟨b1, b2, b3, _, b5⟩ := h3 y (List.mem_of_getElem? hTj)
          have hne := hi.2 t.2 hv2 j y.2 hj hu2
          refine ⟨y.1, rfl, ATree.rep_frame b1 r5 fun a ha => ?_, b2, by omega⟩
          have := ATree.rep_lt b1 ha
          have := h4 t (List.mem_of_getElem? hT) y (List.mem_of_getElem? hTj) (fun h => hne h.symm) a
          exact r6 a (by omega) (by omega)
      · intro a ha hra
        refine r6 a ha ?_
        rw [reach_iff a1] at hra
        omega
    · obtain ⟨p, h', r1, ⟨A', rfl, r2, r3, r4⟩, r5, r6⟩ := Prog.wp_run (hI.cow_ok t.2.2 o t.1 s.heap (by omega) a1 a2 a3)
      exact ⟨_, h', A', r1, rfl, r2, r3, fun a ha => r6 a ha (by omega)⟩

/-- Reading while a copy-on-write call runs, for any read-only program that answers `P`. -/
theorem client_duo (hI : I.Lawful n) (ops : List (SOp O)) (hn : ops.length < n) (hl : (Book.init : Book O).LegalAll I.inpOk ops) (o : O)
    (sched : List Bool) {α : Type} (R : Ptr → Prog D α) (ro : ∀ r, (R r).ReadOnly) (P : List O → α → Prop)
    (hR : ∀ (A : ATree D) (h : Heap D) (l : List O), l.length ≤ n → Rep h A → erase A = I.run l →
      wp (fun _ => False) (R (ptr A)) (fun x _ => P l x) h) :
    ∃ s, Store.init.exec I ops = .ok s ∧ ∀ (i j : Nat) r v q, s.roots[i]? = some r → (Book.init.exec ops).vs[i]? = some v → s.roots[j]? = some q →
      let W := I.cow o q
      let e := (Duo.mk (R r) W s.heap).exec sched
      (∀ x, e.reader ≠ .stop x) ∧ (∀ x, e.writer ≠ .stop x) ∧ ((R r).left s.heap ≤ sched.count true → ∃ x, e.reader = .ret x) ∧
      (∀ x, e.reader = .ret x → P v.2 x) ∧ ∀ y, e.writer = .ret y → W.run s.heap = .ok (y, e.heap) := by
  obtain ⟨s, e, T, hk, h1, h2, h3, h4⟩ := exec_inv hI (inv_init I) ops (by omega) hl
  refine ⟨s, e, fun i j r v q hr hv hq => ?_⟩
  rw [h1, List.getElem?_map] at hr hq
  rw [h2, List.getElem?_map] at hv
  cases hT : T[i]? with
  | none => simp [hT] at hr
  | some t =>
  cases hTj : T[j]? with
  | none => simp [hTj] at hq
  | some u =>
    simp only [hT, hTj, Option.map_some, Option.some.injEq] at hr hv hq
    subst hr hv hq
    obtain ⟨a1, a2, a3, _, a5⟩ := h3 t (List.mem_of_getElem? hT)
    obtain ⟨b1, b2, b3, _, b5⟩ := h3 u (List.mem_of_getElem? hTj)
    have := duo_result hk (R (ATree.ptr t.1)) (I.cow o (ATree.ptr u.1)) (ro _)
      (hR t.1 s.heap t.2.2 (by omega) a1 a2) (hI.cow_ok u.2.2 o u.1 s.heap (by omega) b1 b2 b3) sched
    refine ⟨this.1, this.2.2.2.1, this.2.2.1, fun x hx => ?_, this.2.2.2.2⟩
    obtain ⟨h', _, hx2⟩ := this.2.1 x hx
    exact hx2

end Verif.Heap
