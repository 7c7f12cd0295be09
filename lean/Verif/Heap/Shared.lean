import Verif.Heap.Store

/-!
# Histories in which trees modified in place share nodes with other trees

`Verif/Heap/Store.lean` allows in-place calls only on trees held exclusively.  Here they are allowed on every tree, for implementations
where such a call changes another tree either not at all or in the same way.
-/

namespace Verif.Heap.Prog
variable {D α : Type}

/-- Two things about one program. -/
theorem wp_and {W W' : Addr → Prop} {p : Prog D α} {Q Q' : α → Heap D → Prop} {h : Heap D} (hp : wp W p Q h) (hq : wp W' p Q' h) :
    wp W p (fun x h' => Q x h' ∧ Q' x h') h := by
  induction p generalizing h with
  | ret x => exact ⟨hp, hq⟩
  | stop e => exact hp
  | read a k ih =>
    obtain ⟨c, h1, h2⟩ := hp
    obtain ⟨c', h3, h4⟩ := hq
    rw [h1] at h3; cases h3
    exact ⟨c, h1, ih c h2 h4⟩
  | write a c k ih => exact ⟨hp.1, hp.2.1, ih hp.2.2 hq.2.2⟩
  | alloc c k ih => exact ih _ hp hq

end Verif.Heap.Prog

namespace Verif.Heap
open Prog ATree

variable {D O : Type}

/-- Only one tree is in memory at a pointer. -/
theorem rep_unique {h : Heap D} {A B : ATree D} (hA : Rep h A) (hB : Rep h B) (hp : ptr A = ptr B) : A = B := by
  induction A generalizing B with
  | nil => rw [ptr_nil] at hp; exact (ptr_eq_none.1 hp.symm).symm
  | node a l r ihl ihr =>
    cases B with
    | nil => simp at hp
    | node b l' r' =>
      simp only [ptr_node, Option.some.injEq] at hp
      obtain ⟨h1, _, h2, h3⟩ := hA
      obtain ⟨g1, _, g2, g3⟩ := hB
      rw [hp, g1] at h1
      simp only [Option.some.injEq, Cell.mk.injEq] at h1
      rw [ihl h2 g2 h1.2.1.symm, ihr h3 g3 h1.2.2.symm]
      obtain ⟨a1, a2⟩ := a
      obtain ⟨b1, b2⟩ := b
      simp only at hp h1
      rw [hp, h1.1]

/-- An in-place call on one tree leaves every other tree as it is or does the same to it. -/
structure Impl.Spreads (I : Impl D O) (n : Nat) : Prop extends I.Lawful n where
  inp_other : ∀ (ops : List O) (o : O) (A : ATree D) (h : Heap D), ops.length < n → I.inpOk o → Rep h A → erase A = I.run ops → (∀ x, cnt x A ≤ 1) →
    ∀ p h', (I.inp o (ptr A)).run h = .ok (p, h') →
    ∀ (ops' : List O) (B : ATree D), ops'.length < n → Rep h B → erase B = I.run ops' → (∀ x, cnt x B ≤ 1) →
    ∃ B', ptr B' = ptr B ∧ Rep h' B' ∧ (∀ x, cnt x B' ≤ 1) ∧ (erase B' = erase B ∨ erase B' = I.run (o :: ops'))

/-- What the calls of a client do to the chains of calls its trees stand for (newest first), if an in-place call may also act on other
trees. -/
inductive ChainStep : List (List O) → SOp O → List (List O) → Prop where
  | fresh {C} : ChainStep C .fresh (C ++ [[]])
  | cow {C i o c} : C[i]? = some c → ChainStep C (.cow i o) (C ++ [o :: c])
  | cowOut {C i o} : C[i]? = none → ChainStep C (.cow i o) C
  | inp {C C' i o c} : C[i]? = some c → C'.length = C.length → C'[i]? = some (o :: c) →
      (∀ (j : Nat) d, C[j]? = some d → C'[j]? = some d ∨ C'[j]? = some (o :: d)) → ChainStep C (.inp i o) C'
  | inpOut {C i o} : C[i]? = none → ChainStep C (.inp i o) C
  | drop {C i} : ChainStep C (.drop i) (C.eraseIdx i)

/-- The same for a list of calls. -/
inductive ChainRun : List (List O) → List (SOp O) → List (List O) → Prop where
  | nil {C} : ChainRun C [] C
  | cons {C C' C'' op ops} : ChainStep C op C' → ChainRun C' ops C'' → ChainRun C (op :: ops) C''

/-- In-place calls of the right kind, on any tree. -/
def AnyLegal (ok : O → Prop) : List (SOp O) → Prop
  | [] => True
  | .inp _ o :: ops => ok o ∧ AnyLegal ok ops
  | _ :: ops => AnyLegal ok ops

/-- Every root has its tree. -/
def SInv (I : Impl D O) (m : Nat) (s : Store D) (C : List (List O)) : Prop :=
  ∃ T : List (ATree D × List O), s.heap.Ok ∧ s.roots = T.map (fun t => ptr t.1) ∧ C = T.map (·.2) ∧
    ∀ t ∈ T, Rep s.heap t.1 ∧ erase t.1 = I.run t.2 ∧ (∀ x, cnt x t.1 ≤ 1) ∧ t.2.length ≤ m

/-- Choosing for every element of a list. -/
theorem exists_map {α β : Type} (R : α → β → Prop) (l : List α) (h : ∀ a ∈ l, ∃ b, R a b) :
    ∃ m : List β, m.length = l.length ∧ ∀ (i : Nat) a b, l[i]? = some a → m[i]? = some b → R a b := by
  induction l with
  | nil => exact ⟨[], rfl, by simp⟩
  | cons a l ih =>
    obtain ⟨b, hb⟩ := h a (by simp)
    obtain ⟨m, h1, h2⟩ := ih fun x hx => h x (by simp [hx])
    refine ⟨b :: m, by simp [h1], fun i x y hx hy => ?_⟩
    cases i with
    | zero => simp at hx hy; subst hx hy; exact hb
    | succ i => simp at hx hy; exact h2 i x y hx hy

theorem sstep {I : Impl D O} {n m : Nat} (hI : I.Spreads n) (hm : m < n) {s : Store D} {C : List (List O)} (h : SInv I m s C) (op : SOp O)
    (hl : ∀ i o, op = .inp i o → I.inpOk o) : ∃ s' C', s.step I op = .ok s' ∧ ChainStep C op C' ∧ SInv I (m + 1) s' C' := by
  obtain ⟨T, hk, h1, h2, h3⟩ := h
  have h3' : ∀ t ∈ T, Rep s.heap t.1 ∧ erase t.1 = I.run t.2 ∧ (∀ x, cnt x t.1 ≤ 1) ∧ t.2.length ≤ m + 1 := fun t ht => by
    obtain ⟨a, b, c, d⟩ := h3 t ht; exact ⟨a, b, c, by omega⟩
  cases op with
  | fresh =>
    refine ⟨_, _, rfl, .fresh, T ++ [(.nil, [])], hk, by simp [h1], by simp [h2], ?_⟩
    intro t ht
    rw [List.mem_append, List.mem_singleton] at ht
    rcases ht with ht | rfl
    · exact h3' t ht
    · exact ⟨trivial, by simp [hI.run_nil], by simp, by simp⟩
  | drop i =>
    exact ⟨_, _, rfl, .drop, T.eraseIdx i, hk, by simp [h1, map_eraseIdx], by simp [h2, map_eraseIdx], fun t ht => h3' t (List.mem_of_mem_eraseIdx ht)⟩
  | cow i o =>
    cases hT : T[i]? with
    | none =>
      exact ⟨s, C, by simp [Store.step, h1, hT], .cowOut (by simp [h2, hT]), T, hk, h1, h2, h3'⟩
    | some t =>
      have e1 : s.roots[i]? = some (ptr t.1) := by simp [h1, hT]
      have e2 : C[i]? = some t.2 := by simp [h2, hT]
      obtain ⟨a1, a2, a3, a4⟩ := h3 t (List.mem_of_getElem? hT)
      have hw := hI.cow_ok t.2 o t.1 s.heap (by omega) a1 a2 a3
      obtain ⟨p, h', r1, ⟨A', rfl, r2, r3, r4⟩, r5, r6⟩ := wp_run hw
      refine ⟨⟨h', s.roots ++ [ptr A']⟩, C ++ [o :: t.2], by simp [Store.step, e1, r1], .cow e2, T ++ [(A', o :: t.2)], run_ok hw hk r1, by simp [h1], by simp [h2], ?_⟩
      intro u hu
      rw [List.mem_append, List.mem_singleton] at hu
      rcases hu with hu | rfl
      · obtain ⟨b1, b2, b3, b4⟩ := h3' u hu
        refine ⟨rep_frame b1 r5 fun a ha => ?_, b2, b3, b4⟩
        have := rep_lt b1 ha
        exact r6 a this (by omega)
      · refine ⟨r2, r3, fun x => ?_, by simp; omega⟩
        have := r4 x; have := a3 x; grind
  | inp i o =>
    cases hT : T[i]? with
    | none =>
      exact ⟨s, C, by simp [Store.step, h1, hT], .inpOut (by simp [h2, hT]), T, hk, h1, h2, h3'⟩
    | some t =>
      have e1 : s.roots[i]? = some (ptr t.1) := by simp [h1, hT]
      have e2 : C[i]? = some t.2 := by simp [h2, hT]
      obtain ⟨a1, a2, a3, a4⟩ := h3 t (List.mem_of_getElem? hT)
      have hw := hI.inp_ok t.2 o t.1 s.heap (by omega) (hl i o rfl) a1 a2 a3
      obtain ⟨p, h', r1, ⟨A', rfl, r2, r3, r4⟩, r5, r6⟩ := wp_run hw
      have ho := hI.inp_other t.2 o t.1 s.heap (by omega) (hl i o rfl) a1 a2 a3 _ _ r1
      obtain ⟨U, hU1, hU2⟩ := exists_map (fun (u u' : ATree D × List O) => ptr u'.1 = ptr u.1 ∧ Rep h' u'.1 ∧ erase u'.1 = I.run u'.2 ∧ (∀ x, cnt x u'.1 ≤ 1) ∧
          (u'.2 = u.2 ∨ u'.2 = o :: u.2)) T (fun u hu => by
        obtain ⟨b1, b2, b3, b4⟩ := h3 u hu
        obtain ⟨B', c1, c2, c3, c4⟩ := ho u.2 u.1 (by omega) b1 b2 b3
        rcases c4 with c4 | c4
        · exact ⟨(B', u.2), c1, c2, c4.trans b2, c3, .inl rfl⟩
        · exact ⟨(B', o :: u.2), c1, c2, c4, c3, .inr rfl⟩)
      have hil : i < T.length := (List.getElem?_eq_some_iff.1 hT).1
      have hget : ∀ (j : Nat) (u : ATree D × List O), T[j]? = some u → ∃ u' : ATree D × List O, U[j]? = some u' ∧ ptr u'.1 = ptr u.1 ∧ Rep h' u'.1 ∧ erase u'.1 = I.run u'.2 ∧ (∀ x, cnt x u'.1 ≤ 1) ∧
          (u'.2 = u.2 ∨ u'.2 = o :: u.2) := by
        intro j u hj
        have hjl : j < U.length := by rw [hU1]; exact (List.getElem?_eq_some_iff.1 hj).1
        exact ⟨U[j], List.getElem?_eq_getElem hjl, hU2 j u U[j] hj (List.getElem?_eq_getElem hjl)⟩
      refine ⟨⟨h', s.roots.set i (ptr A')⟩, (U.set i (A', o :: t.2)).map (·.2), by simp [Store.step, e1, r1], .inp e2 (by simp [h2, hU1]) ?_ ?_,
        U.set i (A', o :: t.2), run_ok hw hk r1, ?_, rfl, ?_⟩
      · simp [hU1, hil]
      · intro j d hj
        rw [h2, List.getElem?_map] at hj
        cases hTj : T[j]? with
        | none => simp [hTj] at hj
        | some u =>
          simp only [hTj, Option.map_some, Option.some.injEq] at hj
          subst hj
          obtain ⟨u', q1, _, _, _, _, q⟩ := hget j u hTj
          rw [List.getElem?_map, List.getElem?_set]
          by_cases e : i = j
          · subst e
            rw [hT] at hTj; cases hTj
            simp [hU1, hil]
          · simp only [e, if_false, q1, Option.map_some, Option.some.injEq]
            exact q
      · apply List.ext_getElem?
        intro j
        rw [h1, List.getElem?_map, List.getElem?_set, List.getElem?_set, List.getElem?_map]
        by_cases e : i = j
        · subst e; simp [hU1, hil]
        · simp only [e, if_false]
          cases hTj : T[j]? with
          | none =>
            have : U[j]? = none := by
              rw [List.getElem?_eq_none_iff] at hTj ⊢; omega
            simp [this]
          | some u =>
            obtain ⟨u', q1, q2, _⟩ := hget j u hTj
            simp [q1, q2]
      · intro u hu
        obtain ⟨j, hj⟩ := List.mem_iff_getElem?.1 hu
        rw [List.getElem?_set] at hj
        by_cases e : i = j
        · subst e
          simp [hU1, hil] at hj
          subst hj
          refine ⟨r2, r3, fun x => ?_, by simp; omega⟩
          have := r4 x; have := a3 x; grind
        · simp only [e, if_false] at hj
          have hjl : j < T.length := by rw [← hU1]; exact (List.getElem?_eq_some_iff.1 hj).1
          obtain ⟨u', q1, _, q3, q4, q5, q⟩ := hget j _ (List.getElem?_eq_getElem hjl)
          rw [hj] at q1; cases q1
          have hlen := (h3 _ (List.getElem_mem hjl)).2.2.2
          refine ⟨q3, q4, q5, ?_⟩
          rcases q with q | q
          · rw [q]; omega
          · rw [q, List.length_cons]; omega

/-- Any history: no call fails, and every root is the tree of a chain of calls as `ChainRun` allows. -/
theorem shared_history {I : Impl D O} {n : Nat} (hI : I.Spreads n) (ops : List (SOp O)) :
    ∀ {m : Nat} {s : Store D} {C : List (List O)}, m + ops.length ≤ n → SInv I m s C → AnyLegal I.inpOk ops →
    ∃ s' C', s.exec I ops = .ok s' ∧ ChainRun C ops C' ∧ SInv I (m + ops.length) s' C' := by
  induction ops with
  | nil => intro m s C _ h _; exact ⟨s, C, rfl, .nil, h⟩
  | cons op ops ih =>
    intro m s C hm h hl
    simp only [List.length_cons] at hm
    obtain ⟨s1, C1, e1, c1, i1⟩ := sstep hI (by omega) h op (by
      rintro i o rfl; exact hl.1)
    have hl' : AnyLegal I.inpOk ops := by cases op <;> first | exact hl | exact hl.2
    obtain ⟨s2, C2, e2, c2, i2⟩ := ih (m := m + 1) (by omega) i1 hl'
    exact ⟨s2, C2, by simp [Store.exec, e1, e2], .cons c1 c2, by rw [List.length_cons, show m + (ops.length + 1) = m + 1 + ops.length by omega]; exact i2⟩

end Verif.Heap
