import Verif.DomHeap.Insert
import Verif.DomTree.Enum

/-! # Get and Enumerate of domaintree on memory -/

namespace Verif.DomHeap
open Verif Verif.Heap Verif.Heap.Prog Verif.Heap.ATree Verif.RB Verif.RBHeap Verif.DLHeap Verif.DL Verif.Domain Verif.DomainText Verif.DomTree

variable {V : Type}

section
variable {m k f : Nat} {h : Heap (DD V)} {W : Addr → Prop}

/-- The walk of `Get`. -/
theorem getWalk (hf : tall m < f) (ls : List Bytes) : ∀ (k : Nat) (a : Addr) (n : Node V) (F : Addr → Prop) (v : Option V), NRep m h k a n F → ls.length < k →
    wp W (foldP (getStepP f) (some a, v) ls) (fun x h' => h' = h ∧ x.1.2 = (foldStop getStep (n, v) ls).1.2) h := by
  induction ls with
  | nil => intro k a n F v hN hk; exact ⟨rfl, rfl⟩
  | cons l ls ih =>
    intro k a n F v hN hk
    simp only [List.length_cons] at hk
    obtain ⟨k, rfl⟩ : ∃ j, k = j + 1 := ⟨k - 1, by omega⟩
    obtain ⟨t, A, fn, ff, o⟩ := hN
    simp only [foldP, getStepP]
    rw [wp_bind, wp_bind, wp_nodeP o.cell, wp_bind]
    refine wp_conseq (RawGetP_spec o.lab hf l) ?_
    rintro _ h0 ⟨rfl, rfl⟩
    have hget := o.rawGet l
    simp only [foldStop, getStep, hget]
    cases e : at_ A l with
    | none =>
      have e' : RB.get cmpLabel (erase A) l = none := e
      simp only [e', wp_pure, Option.map_none]
      exact ⟨trivial, trivial⟩
    | some p =>
      obtain ⟨c, rfl, r⟩ := o.sub l p e
      have e' : RB.get cmpLabel (erase A) l = some (some c) := e
      obtain ⟨k, rfl⟩ : ∃ j, k = j + 1 := by
        cases k with
        | zero => exact r.elim
        | succ j => exact ⟨j, rfl⟩
      have ⟨t', A', fn', ff', o'⟩ := r
      simp only [e', assertP, Option.map_some]
      rw [wp_bind, wp_pure, wp_bind, wp_nodeP o'.cell]
      cases (fn (some c)).val with
      | none =>
        simp only [wp_pure]
        exact ih _ c _ _ _ r (by omega)
      | some v' =>
        simp only [wp_pure]
        exact ih _ c _ _ _ r (by omega)

theorem GetP_spec {p : Ptr} {n : Option (Node V)} {F : Addr → Prop} {d : Name} {ls : List Bytes} (hf : tall m < f) (hN : PRep m h k p n F) (hd : Holds d ls)
    (hk : ls.length < k) : wp W (GetP f p d) (fun x h' => h' = h ∧ DomTree.Get n d = some x) h := by
  unfold GetP DomTree.Get
  cases p with
  | none =>
    cases n with
    | none => exact ⟨rfl, rfl⟩
    | some n => exact hN.elim
  | some a =>
    cases n with
    | none => exact hN.elim
    | some n =>
      simp only [reduceCtorEq, if_false, getLabelsP hd, hd.getLabels]
      rw [wp_bind]
      refine wp_conseq (getWalk hf ls k a n F none hN hk) ?_
      rintro x h' ⟨e1, e2⟩
      refine ⟨e1, ?_⟩
      simp [e2]

/-! ## Enumerate -/

theorem humanL_map {α β : Type} (g : α → β) (l : List (Bytes × α)) :
    humanL (l.map fun p => (p.1, g p.2)) = (humanL l).map fun r => r.map fun p => (p.1, g p.2) := by
  induction l with
  | nil => rfl
  | cons p l ih =>
    obtain ⟨k, v⟩ := p
    simp only [List.map_cons, humanL, ih]
    cases MakeHumanReadableLabel k <;> cases humanL l <;> simp

theorem humanL_mem {α : Type} {l r : List (Bytes × α)} (h : humanL l = some r) : ∀ q ∈ r, ∃ p ∈ l, p.2 = q.2 := by
  induction l generalizing r with
  | nil => cases h; simp
  | cons p l ih =>
    obtain ⟨k, v⟩ := p
    simp only [humanL] at h
    split at h
    · rename_i k' l' e1 e2
      cases h
      intro q hq
      rcases List.mem_cons.1 hq with rfl | hq
      · exact ⟨(k, v), by simp, rfl⟩
      · obtain ⟨p, hp, e⟩ := ih e2 q hq
        exact ⟨p, by simp [hp], e⟩
    · cases h

theorem enumItems_spec {g : Bytes → Ptr → Prog (DD V) (List (Bytes × V))} {fn : Ptr → Node V} {s : Bytes} (items : List (Bytes × Ptr))
    (hg : ∀ q ∈ items, ∃ c, q.2 = some c ∧ ∀ s' xs, enumN s' (fn (some c)) = some xs → wp W (g s' (some c)) (fun x h' => h' = h ∧ x = xs) h) {rest : List (Bytes × V)}
    (hr : concatAll ((items.map fun p => (p.1, fn p.2)).map fun p => enumN (subKey p.1 s) p.2) = some rest) :
    wp W (enumItemsP g s items) (fun x h' => h' = h ∧ x = rest) h := by
  induction items generalizing rest with
  | nil => cases hr; exact ⟨rfl, rfl⟩
  | cons q items ih =>
    obtain ⟨key, item⟩ := q
    obtain ⟨c, rfl, hc⟩ := hg (key, item) (by simp)
    simp only [List.map_cons, concatAll, Option.bind_eq_some_iff, Option.map_eq_some_iff] at hr
    obtain ⟨a, ha, b, hb, rfl⟩ := hr
    simp only [enumItemsP, assertP]
    rw [wp_bind, wp_pure, wp_bind]
    refine wp_conseq (hc _ _ ha) ?_
    rintro _ _ ⟨rfl, rfl⟩
    rw [wp_bind]
    refine wp_conseq (ih (fun q hq => hg q (by simp [hq])) hb) ?_
    rintro _ _ ⟨e, rfl⟩
    exact ⟨e, rfl⟩

theorem enumP_spec (hf : tall m < f) : ∀ (k j : Nat) (s : Bytes) (a : Addr) (n : Node V) (F : Addr → Prop) (xs : List (Bytes × V)), k ≤ j → NRep m h k a n F →
    enumN s n = some xs → wp W (enumP f j s (some a)) (fun x h' => h' = h ∧ x = xs) h := by
  intro k
  induction k with
  | zero => intro j s a n F xs _ hN; exact hN.elim
  | succ k ih =>
    intro j s a n F xs hj hN hx
    obtain ⟨j, rfl⟩ : ∃ i, j = i + 1 := ⟨j - 1, by omega⟩
    obtain ⟨t, A, fn, ff, o⟩ := hN
    rw [enumN_eq] at hx
    simp only [Option.bind_eq_some_iff, Option.map_eq_some_iff] at hx
    obtain ⟨ps, hps, rest, hrest, rfl⟩ := hx
    rw [DL.Enumerate, o.br, brOf_root o.lab, ← humanL_eq, enumerate_map, humanL_map, Option.map_eq_some_iff] at hps
    obtain ⟨items, hitems, rfl⟩ := hps
    simp only [enumP, reduceCtorEq, if_false]
    rw [wp_bind, wp_nodeP o.cell, wp_bind]
    refine wp_conseq (EnumerateP_spec o.lab hf (by rw [← humanL_eq]; exact hitems)) ?_
    rintro _ _ ⟨rfl, rfl⟩
    rw [wp_bind]
    refine wp_conseq (enumItems_spec _ ?_ hrest) ?_
    · intro q hq
      obtain ⟨p, hp, e⟩ := humanL_mem hitems q hq
      obtain ⟨c, e1, r⟩ := o.sub p.1 p.2 ((get_lookup o.lab.srt).2 hp)
      exact ⟨c, e ▸ e1, fun s' xs hx => ih j s' c _ _ xs (by omega) (e1 ▸ r) hx⟩
    · rintro _ _ ⟨e, rfl⟩
      exact ⟨e, rfl⟩

theorem EnumerateTreeP_spec {p : Ptr} {n : Option (Node V)} {F : Addr → Prop} (hf : tall m < f) (hkf : k ≤ f) (hN : PRep m h k p n F) {xs : List (Bytes × V)}
    (hx : DomTree.Enumerate n = some xs) : wp W (EnumerateTreeP f p) (fun x h' => h' = h ∧ x = xs) h := by
  unfold EnumerateTreeP
  cases p with
  | none =>
    cases n with
    | none =>
      cases hx
      obtain ⟨f, rfl⟩ : ∃ j, f = j + 1 := ⟨f - 1, by omega⟩
      exact ⟨rfl, rfl⟩
    | some n => exact hN.elim
  | some a =>
    cases n with
    | none => exact hN.elim
    | some n => exact enumP_spec hf k f [] a n F xs hkf hN hx
end

/-! ## Reads do not write -/

theorem nodeP_readOnly (n : Ptr) : (nodeP n : Prog (DD V) _).ReadOnly :=
  Prog.ReadOnly.lift _ ((ReadOnly.load n).bind fun _ => ReadOnly.pure _)

theorem assertP_readOnly (n : Ptr) : (assertP n : Prog (DD V) _).ReadOnly := by
  unfold assertP
  split <;> trivial

theorem getStepP_readOnly (f : Nat) (st : Ptr × Option V) (l : Bytes) : (getStepP f st l).ReadOnly := by
  unfold getStepP
  refine (nodeP_readOnly _).bind fun x => (RawGetP_readOnly _ _ _).bind fun item => ?_
  split
  · trivial
  · refine (assertP_readOnly _).bind fun n => (nodeP_readOnly _).bind fun y => ?_
    split <;> trivial

theorem getLabelsLoopP_readOnly {D σ E : Type} {g : σ → Bytes → Prog D (σ × Option E)} (hg : ∀ st l, (g st l).ReadOnly) (c : Bytes) (fuel off : Nat) (st : σ) :
    (getLabelsLoopP g c fuel off st).ReadOnly := by
  induction fuel generalizing off st with
  | zero => trivial
  | succ fuel ih =>
    unfold getLabelsLoopP
    split
    · simp only
      split
      · trivial
      · refine (hg _ _).bind fun x => ?_
        split
        · trivial
        · exact ih _ _
    · trivial

theorem GetP_readOnly (f : Nat) (n : Ptr) (d : Name) : (GetP (V := V) f n d).ReadOnly := by
  unfold GetP
  split
  · trivial
  · exact (getLabelsLoopP_readOnly (getStepP_readOnly f) _ _ _ _).bind fun _ => trivial

theorem enumItemsP_readOnly {g : Bytes → Ptr → Prog (DD V) (List (Bytes × V))} (hg : ∀ s n, (g s n).ReadOnly) (s : Bytes) (l : List (Bytes × Ptr)) :
    (enumItemsP g s l).ReadOnly := by
  induction l with
  | nil => trivial
  | cons p l ih => exact (assertP_readOnly _).bind fun _ => (hg _ _).bind fun _ => ih.bind fun _ => trivial

theorem enumP_readOnly (f k : Nat) (s : Bytes) (n : Ptr) : (enumP (V := V) f k s n).ReadOnly := by
  induction k generalizing s n with
  | zero => trivial
  | succ k ih =>
    unfold enumP
    split
    · trivial
    · exact (nodeP_readOnly _).bind fun _ => (EnumerateP_readOnly _ _).bind fun _ => (enumItemsP_readOnly ih _ _).bind fun _ => trivial

theorem EnumerateTreeP_readOnly (f : Nat) (n : Ptr) : (EnumerateTreeP (V := V) f n).ReadOnly := enumP_readOnly f f [] n

end Verif.DomHeap
