import Verif.Heap.Prog

/-!
# Histories with many live trees

A client holds any number of roots.  It can start a new empty tree, derive a new root from any root it holds by a
copy-on-write call, modify a root it holds in place, and forget roots.  An in-place call is legal when the client holds no
other root derived from the same starting tree ("exclusive access").  The theorem: in every legal history no call panics
and every root held represents the tree made by its own chain of calls, whatever happened to the others.
-/

namespace Verif.Heap
open Prog ATree

/-- A tree implementation: copy-on-write and in-place calls on a root pointer, and the functional tree a chain of calls
(newest first) makes. -/
structure Impl (D O : Type) where
  cow : O → Ptr → Prog D Ptr
  inp : O → Ptr → Prog D Ptr
  inpOk : O → Prop
  run : List O → BTree D

/-- What has to be proved about an implementation, for chains of at most `n` calls (loop bounds of the model may depend
on `n`). -/
structure Impl.Lawful {D O : Type} (I : Impl D O) (n : Nat) : Prop where
  run_nil : I.run [] = .nil
  cow_ok : ∀ (ops : List O) (o : O) (A : ATree D) (h : Heap D), ops.length < n → Rep h A → erase A = I.run ops → (∀ x, cnt x A ≤ 1) →
    wp (fun a => h.next ≤ a) (I.cow o (ptr A)) (fun p h' => ∃ A', p = ptr A' ∧ Rep h' A' ∧ erase A' = I.run (o :: ops) ∧
      ∀ x, cnt x A' ≤ if h.next ≤ x then 1 else cnt x A) h
  inp_ok : ∀ (ops : List O) (o : O) (A : ATree D) (h : Heap D), ops.length < n → I.inpOk o → Rep h A → erase A = I.run ops → (∀ x, cnt x A ≤ 1) →
    wp (fun a => 1 ≤ cnt a A ∨ h.next ≤ a) (I.inp o (ptr A)) (fun p h' => ∃ A', p = ptr A' ∧ Rep h' A' ∧ erase A' = I.run (o :: ops) ∧
      ∀ x, cnt x A' ≤ if h.next ≤ x then 1 else cnt x A) h

/-- A step of the client; trees are named by their position in the client's list. -/
inductive SOp (O : Type) where
  | fresh
  | cow (i : Nat) (o : O)
  | inp (i : Nat) (o : O)
  | drop (i : Nat)

variable {D O : Type}

/-- Memory and the roots the client holds. -/
structure Store (D : Type) where
  heap : Heap D
  roots : List Ptr

/-- One step; a position that is not there does nothing. -/
def Store.step (I : Impl D O) (s : Store D) : SOp O → Except Err (Store D)
  | .fresh => .ok ⟨s.heap, s.roots ++ [none]⟩
  | .cow i o =>
    match s.roots[i]? with
    | none => .ok s
    | some r => match (I.cow o r).run s.heap with
      | .ok (r', h') => .ok ⟨h', s.roots ++ [r']⟩
      | .error e => .error e
  | .inp i o =>
    match s.roots[i]? with
    | none => .ok s
    | some r => match (I.inp o r).run s.heap with
      | .ok (r', h') => .ok ⟨h', s.roots.set i r'⟩
      | .error e => .error e
  | .drop i => .ok ⟨s.heap, s.roots.eraseIdx i⟩

/-- A history, oldest step first. -/
def Store.exec (I : Impl D O) (s : Store D) : List (SOp O) → Except Err (Store D)
  | [] => .ok s
  | op :: ops => match s.step I op with
    | .ok s' => s'.exec I ops
    | .error e => .error e

/-- What the client knows about its trees: which starting tree they come from and the chain of calls (newest first). -/
structure Book (O : Type) where
  next : Nat
  vs : List (Nat × List O)

def Book.step (b : Book O) : SOp O → Book O
  | .fresh => ⟨b.next + 1, b.vs ++ [(b.next, [])]⟩
  | .cow i o => match b.vs[i]? with
    | none => b
    | some v => ⟨b.next, b.vs ++ [(v.1, o :: v.2)]⟩
  | .inp i o => match b.vs[i]? with
    | none => b
    | some v => ⟨b.next, b.vs.set i (v.1, o :: v.2)⟩
  | .drop i => ⟨b.next, b.vs.eraseIdx i⟩

def Book.exec (b : Book O) : List (SOp O) → Book O
  | [] => b
  | op :: ops => (b.step op).exec ops

/-- In-place calls need exclusive access. -/
def Book.Legal (ok : O → Prop) (b : Book O) : SOp O → Prop
  | .inp i o => ok o ∧ ∀ v, b.vs[i]? = some v → ∀ j u, j ≠ i → b.vs[j]? = some u → u.1 ≠ v.1
  | _ => True

def Book.LegalAll (ok : O → Prop) (b : Book O) : List (SOp O) → Prop
  | [] => True
  | op :: ops => b.Legal ok op ∧ (b.step op).LegalAll ok ops

/-- Invariant: `T` lists for every root its annotated tree and its book entry; chains have at most `m` calls. -/
def Inv (I : Impl D O) (m : Nat) (s : Store D) (b : Book O) : Prop :=
  ∃ T : List (ATree D × Nat × List O),
    s.heap.Ok ∧ s.roots = T.map (fun t => ptr t.1) ∧ b.vs = T.map (·.2) ∧
    (∀ t ∈ T, Rep s.heap t.1 ∧ erase t.1 = I.run t.2.2 ∧ (∀ x, cnt x t.1 ≤ 1) ∧ t.2.1 < b.next ∧ t.2.2.length ≤ m) ∧
    ∀ t ∈ T, ∀ u ∈ T, t.2.1 ≠ u.2.1 → ∀ x, cnt x t.1 = 0 ∨ cnt x u.1 = 0

theorem map_eraseIdx {α β : Type} (f : α → β) (l : List α) (i : Nat) : (l.map f).eraseIdx i = (l.eraseIdx i).map f := by
  induction l generalizing i with
  | nil => rfl
  | cons a l ih => cases i <;> simp [List.eraseIdx, ih]

theorem step_inv {I : Impl D O} {n m : Nat} (hI : I.Lawful n) (hm : m < n) {s : Store D} {b : Book O} (h : Inv I m s b) (op : SOp O)
    (hl : b.Legal I.inpOk op) : ∃ s', s.step I op = .ok s' ∧ Inv I (m + 1) s' (b.step op) := by
  obtain ⟨T, hk, h1, h2, h3, h4⟩ := h
  cases op with
  | fresh =>
    refine ⟨_, rfl, T ++ [(.nil, b.next, [])], hk, by simp [h1], by simp [Book.step, h2], ?_, ?_⟩
    · intro t ht
      rw [List.mem_append, List.mem_singleton] at ht
      rcases ht with ht | rfl
      · obtain ⟨a, b', c, d, e⟩ := h3 t ht
        exact ⟨a, b', c, by simp [Book.step]; omega, by omega⟩
      · exact ⟨trivial, by simp [hI.run_nil], by simp, by simp [Book.step], by simp⟩
    · intro t ht u hu hne x
      rw [List.mem_append, List.mem_singleton] at ht hu
      rcases ht with ht | rfl
      · rcases hu with hu | rfl
        · exact h4 t ht u hu hne x
        · exact .inr rfl
      · exact .inl rfl
  | drop i =>
    refine ⟨_, rfl, T.eraseIdx i, hk, by simp [h1, map_eraseIdx], by simp [Book.step, h2, map_eraseIdx], ?_, ?_⟩
    · intro t ht
      obtain ⟨a, b', c, d, e⟩ := h3 t (List.mem_of_mem_eraseIdx ht)
      exact ⟨a, b', c, d, by omega⟩
    · intro t ht u hu; exact h4 t (List.mem_of_mem_eraseIdx ht) u (List.mem_of_mem_eraseIdx hu)
  | cow i o =>
    cases hT : T[i]? with
    | none =>
      have e1 : s.roots[i]? = none := by simp [h1, hT]
      have e2 : b.vs[i]? = none := by simp [h2, hT]
      refine ⟨s, by simp [Store.step, e1], T, hk, h1, ?_, ?_⟩
      · simp only [Book.step, e2]; exact h2
      · simp only [Book.step, e2]
        exact ⟨fun t ht => by obtain ⟨a, b', c, d, e⟩ := h3 t ht; exact ⟨a, b', c, d, by omega⟩, h4⟩
    | some t =>
      have e1 : s.roots[i]? = some (ptr t.1) := by simp [h1, hT]
      have e2 : b.vs[i]? = some t.2 := by simp [h2, hT]
      have ht : t ∈ T := List.mem_of_getElem? hT
      obtain ⟨a1, a2, a3, a4, a5⟩ := h3 t ht
      obtain ⟨p, h', r1, ⟨A', rfl, r2, r3, r4⟩, r5, r6⟩ := wp_run (hI.cow_ok t.2.2 o t.1 s.heap (by omega) a1 a2 a3)
      refine ⟨⟨h', s.roots ++ [ptr A']⟩, by simp [Store.step, e1, r1], T ++ [(A', t.2.1, o :: t.2.2)], run_ok (hI.cow_ok t.2.2 o t.1 s.heap (by omega) a1 a2 a3) hk r1, by simp [h1], by simp only [Book.step, e2]; simp [h2], ?_, ?_⟩
      · intro u hu
        rw [List.mem_append, List.mem_singleton] at hu
        have hn : (b.step (.cow i o)).next = b.next := by simp [Book.step, e2]
        rw [hn]
        rcases hu with hu | rfl
        · obtain ⟨b1, b2, b3, b4, b5⟩ := h3 u hu
          refine ⟨rep_frame b1 r5 fun a ha => ?_, b2, b3, b4, by omega⟩
          have := rep_lt b1 ha
          exact r6 a this (by omega)
        · refine ⟨r2, r3, fun x => ?_, a4, by simp; omega⟩
          have := r4 x; have := a3 x; grind
      · have key : ∀ u ∈ T, t.2.1 ≠ u.2.1 → ∀ x, cnt x A' = 0 ∨ cnt x u.1 = 0 := by
          intro u hu hne x
          have hu' := h3 u hu
          have k1 := h4 t ht u hu hne x
          have k2 := r4 x
          have k3 := rep_zero hu'.1 x
          grind
        intro u hu v hv hne x
        rw [List.mem_append, List.mem_singleton] at hu hv
        rcases hu with hu | rfl
        · rcases hv with hv | rfl
          · exact h4 u hu v hv hne x
          · exact (key u hu (fun e => hne e.symm) x).symm
        · rcases hv with hv | rfl
          · exact key v hv hne x
          · exact absurd rfl hne
  | inp i o =>
    cases hT : T[i]? with
    | none =>
      have e1 : s.roots[i]? = none := by simp [h1, hT]
      have e2 : b.vs[i]? = none := by simp [h2, hT]
      refine ⟨s, by simp [Store.step, e1], T, hk, h1, ?_, ?_⟩
      · simp only [Book.step, e2]; exact h2
      · simp only [Book.step, e2]
        exact ⟨fun t ht => by obtain ⟨a, b', c, d, e⟩ := h3 t ht; exact ⟨a, b', c, d, by omega⟩, h4⟩
    | some t =>
      have e1 : s.roots[i]? = some (ptr t.1) := by simp [h1, hT]
      have e2 : b.vs[i]? = some t.2 := by simp [h2, hT]
      have ht : t ∈ T := List.mem_of_getElem? hT
      obtain ⟨a1, a2, a3, a4, a5⟩ := h3 t ht
      obtain ⟨p, h', r1, ⟨A', rfl, r2, r3, r4⟩, r5, r6⟩ := wp_run (hI.inp_ok t.2.2 o t.1 s.heap (by omega) hl.1 a1 a2 a3)
      have hil : i < T.length := by
        rcases Nat.lt_or_ge i T.length with h | h
        · exact h
        · simp [List.getElem?_eq_none h] at hT
      have others : ∀ u ∈ T.set i (A', t.2.1, o :: t.2.2), u = (A', t.2.1, o :: t.2.2) ∨ (u ∈ T ∧ t.2.1 ≠ u.2.1) := by
        intro u hu
        obtain ⟨j, hj⟩ := List.mem_iff_getElem?.1 hu
        rw [List.getElem?_set] at hj
        by_cases e : i = j
        · subst e
          simp [hil] at hj; exact .inl hj.symm
        · rw [if_neg e] at hj
          refine .inr ⟨List.mem_of_getElem? hj, ?_⟩
          have := hl.2 t.2 e2 j u.2 (fun h => e h.symm) (by simp [h2, hj])
          exact fun h => this h.symm
      refine ⟨⟨h', s.roots.set i (ptr A')⟩, by simp [Store.step, e1, r1], T.set i (A', t.2.1, o :: t.2.2), run_ok (hI.inp_ok t.2.2 o t.1 s.heap (by omega) hl.1 a1 a2 a3) hk r1, by simp [h1, List.map_set], by simp only [Book.step, e2]; simp [h2, List.map_set], ?_, ?_⟩
      · intro u hu
        have hn : (b.step (.inp i o)).next = b.next := by simp [Book.step, e2]
        rw [hn]
        rcases others u hu with rfl | ⟨hu, hne⟩
        · refine ⟨r2, r3, fun x => ?_, a4, by simp; omega⟩
          have := r4 x; have := a3 x; grind
        · obtain ⟨b1, b2, b3, b4, b5⟩ := h3 u hu
          refine ⟨rep_frame b1 r5 fun a ha => ?_, b2, b3, b4, by omega⟩
          have := rep_lt b1 ha
          have := h4 t ht u hu hne a
          exact r6 a (by omega) (by omega)
      · have key : ∀ u ∈ T, t.2.1 ≠ u.2.1 → ∀ x, cnt x A' = 0 ∨ cnt x u.1 = 0 := by
          intro u hu hne x
          have hu' := h3 u hu
          have k1 := h4 t ht u hu hne x
          have k2 := r4 x
          have k3 := rep_zero hu'.1 x
          grind
        intro u hu v hv hne x
        rcases others u hu with rfl | ⟨hu, _⟩
        · rcases others v hv with rfl | ⟨hv, _⟩
          · exact absurd rfl hne
          · exact key v hv hne x
        · rcases others v hv with rfl | ⟨hv, _⟩
          · exact (key u hu (fun e => hne e.symm) x).symm
          · exact h4 u hu v hv hne x

theorem exec_inv {I : Impl D O} {n m : Nat} (hI : I.Lawful n) {s : Store D} {b : Book O} (h : Inv I m s b) (ops : List (SOp O))
    (hm : m + ops.length ≤ n) (hl : b.LegalAll I.inpOk ops) : ∃ s', s.exec I ops = .ok s' ∧ Inv I (m + ops.length) s' (b.exec ops) := by
  induction ops generalizing s b m with
  | nil => exact ⟨s, rfl, h⟩
  | cons op ops ih =>
    simp only [List.length_cons] at hm
    obtain ⟨s1, e1, i1⟩ := step_inv hI (by omega) h op hl.1
    obtain ⟨s2, e2, i2⟩ := ih i1 (by omega) hl.2
    refine ⟨s2, by simp [Store.exec, e1, e2], ?_⟩
    rw [List.length_cons, Nat.add_comm _ 1, ← Nat.add_assoc]; exact i2

/-- The client starts with nothing. -/
def Store.init : Store D := ⟨.empty, []⟩
def Book.init : Book O := ⟨0, []⟩

theorem inv_init (I : Impl D O) : Inv I 0 Store.init Book.init := ⟨[], Heap.ok_empty, rfl, rfl, by simp, by simp⟩

/-- In every legal history every held root represents the tree of its own chain of calls. -/
theorem history {I : Impl D O} {n : Nat} (hI : I.Lawful n) (ops : List (SOp O)) (hn : ops.length ≤ n) (hl : (Book.init : Book O).LegalAll I.inpOk ops) :
    ∃ s, Store.init.exec I ops = .ok s ∧ s.heap.Ok ∧ s.roots.length = (Book.init.exec ops).vs.length ∧
      ∀ (i : Nat) r v, s.roots[i]? = some r → (Book.init.exec ops).vs[i]? = some v →
        ∃ A, r = ptr A ∧ Rep s.heap A ∧ erase A = I.run v.2 ∧ ∀ x, cnt x A ≤ 1 := by
  obtain ⟨s, e, T, hk, h1, h2, h3, h4⟩ := exec_inv hI (inv_init I) ops (by omega) hl
  refine ⟨s, e, hk, by simp [h1, h2], fun i r v hr hv => ?_⟩
  rw [h1, List.getElem?_map] at hr
  rw [h2, List.getElem?_map] at hv
  cases hT : T[i]? with
  | none => simp [hT] at hr
  | some t =>
    simp only [hT, Option.map_some, Option.some.injEq] at hr hv
    subst hr hv
    obtain ⟨a1, a2, a3, _, _⟩ := h3 t (List.mem_of_getElem? hT)
    exact ⟨t.1, rfl, a1, a2, a3⟩

theorem exec_append (I : Impl D O) (s : Store D) (a b : List (SOp O)) :
    s.exec I (a ++ b) = match s.exec I a with
      | .ok s' => s'.exec I b
      | .error e => .error e := by
  induction a generalizing s with
  | nil => rfl
  | cons op a ih =>
    simp only [List.cons_append, Store.exec]
    cases s.step I op with
    | ok s' => exact ih s'
    | error e => rfl

end Verif.Heap
