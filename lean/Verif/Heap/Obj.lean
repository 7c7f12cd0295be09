import Verif.Heap.Reach
import Verif.Heap.Interleave

/-!
# Histories with many live objects of any shape

The same setting as in `Store.lean` for objects that are more than one tree: a root is any value (a Go struct with pointers),
and what it stands for is given by a relation with a footprint, the set of addresses it depends on.
-/

namespace Verif.Heap
open Prog
variable {D O R : Type}

theorem Prog.run_bind {α β : Type} (p : Prog D α) (k : α → Prog D β) (h : Heap D) :
    (p >>= k).run h = match p.run h with
      | .ok (x, h') => (k x).run h'
      | .error e => .error e := by
  show (p.bind k).run h = _
  induction p generalizing h with
  | ret x => rfl
  | stop e => rfl
  | read a c ih =>
    simp only [Prog.bind, Prog.run]
    cases h.mem a with
    | none => rfl
    | some x => exact ih x h
  | write a c p ih => exact ih _
  | alloc c p ih => exact ih _ _

/-- An implementation: a fresh object, copy-on-write and in-place calls, which calls are covered after which chains, and the relation "in this
memory the root is what the chain of calls (newest first) makes, using these addresses". -/
structure OImpl (D O R : Type) where
  fresh : Prog D R
  cow : O → R → Prog D R
  inp : O → R → Prog D R
  cowOk : List O → O → Prop
  inpOk : List O → O → Prop
  Obj : Heap D → R → List O → (Addr → Prop) → Prop

/-- What has to be proved about an implementation, for chains of at most `n` calls. -/
structure OImpl.Lawful (I : OImpl D O R) (n : Nat) : Prop where
  fresh_ok : ∀ h, wp (fun a => h.next ≤ a) I.fresh (fun r h' => ∃ F, I.Obj h' r [] F ∧ ∀ x, F x → h.next ≤ x) h
  lt : ∀ {h r l F a}, I.Obj h r l F → F a → a < h.next
  frame : ∀ {h h' : Heap D} {r l F}, I.Obj h r l F → h.next ≤ h'.next → (∀ a, F a → h'.mem a = h.mem a) → I.Obj h' r l F
  cow_ok : ∀ (l : List O) (o : O) (r : R) (h : Heap D) F, l.length < n → I.cowOk l o → I.Obj h r l F →
    wp (fun a => h.next ≤ a) (I.cow o r) (fun r' h' => ∃ F', I.Obj h' r' (o :: l) F' ∧ ∀ x, F' x → h.next ≤ x ∨ F x) h
  inp_ok : ∀ (l : List O) (o : O) (r : R) (h : Heap D) F, l.length < n → I.inpOk l o → I.Obj h r l F →
    wp (fun a => F a ∨ h.next ≤ a) (I.inp o r) (fun r' h' => ∃ F', I.Obj h' r' (o :: l) F' ∧ ∀ x, F' x → h.next ≤ x ∨ F x) h

/-- Memory and the roots the client holds. -/
structure OStore (D R : Type) where
  heap : Heap D
  roots : List R

/-- One step; a position that is not there does nothing. -/
def OStore.step (I : OImpl D O R) (s : OStore D R) : SOp O → Except Err (OStore D R)
  | .fresh => match I.fresh.run s.heap with
    | .ok (r, h') => .ok ⟨h', s.roots ++ [r]⟩
    | .error e => .error e
  | .cow i o =>
    match s.roots[i]? with
    | none => .ok s
    | some r => match (I.cow o r).run s.heap with
      | .ok (r', h') => .ok ⟨h', s.roots ++ [r']⟩
      | .error e => .error e
  | .inp i o =>
    match s.roots[i]? with
    | none => .ok s
    | some r => match (I.inp o r).run s.heap with
      | .ok (r', h') => .ok ⟨h', s.roots.set i r'⟩
      | .error e => .error e
  | .drop i => .ok ⟨s.heap, s.roots.eraseIdx i⟩

/-- The same step as a program on the list of roots. -/
def stepP (I : OImpl D O R) (roots : List R) : SOp O → Prog D (List R)
  | .fresh => I.fresh >>= fun r => pure (roots ++ [r])
  | .cow i o => match roots[i]? with
    | none => pure roots
    | some r => I.cow o r >>= fun r' => pure (roots ++ [r'])
  | .inp i o => match roots[i]? with
    | none => pure roots
    | some r => I.inp o r >>= fun r' => pure (roots.set i r')
  | .drop i => pure (roots.eraseIdx i)

theorem stepP_run (I : OImpl D O R) (s : OStore D R) (op : SOp O) :
    (stepP I s.roots op).run s.heap = match s.step I op with
      | .ok s' => .ok (s'.roots, s'.heap)
      | .error e => .error e := by
  cases op with
  | fresh =>
    simp only [stepP, OStore.step, Prog.run_bind]
    cases I.fresh.run s.heap <;> rfl
  | cow i o =>
    simp only [stepP, OStore.step]
    cases s.roots[i]? with
    | none => rfl
    | some r =>
      simp only [Prog.run_bind]
      cases (I.cow o r).run s.heap <;> rfl
  | inp i o =>
    simp only [stepP, OStore.step]
    cases s.roots[i]? with
    | none => rfl
    | some r =>
      simp only [Prog.run_bind]
      cases (I.inp o r).run s.heap <;> rfl
  | drop i => rfl

/-- A history, oldest step first. -/
def OStore.exec (I : OImpl D O R) (s : OStore D R) : List (SOp O) → Except Err (OStore D R)
  | [] => .ok s
  | op :: ops => match s.step I op with
    | .ok s' => s'.exec I ops
    | .error e => .error e

/-- The client starts with nothing. -/
def OStore.init : OStore D R := ⟨.empty, []⟩

/-- Covered calls; in-place calls need exclusive access: no other held root has the same origin. -/
def Book.Legal2 (ok : List O → O → Prop) (iok : List O → O → Prop) (b : Book O) : SOp O → Prop
  | .cow i o => ∀ v, b.vs[i]? = some v → ok v.2 o
  | .inp i o => ∀ v, b.vs[i]? = some v → iok v.2 o ∧ ∀ j u, j ≠ i → b.vs[j]? = some u → u.1 ≠ v.1
  | _ => True

def Book.LegalAll2 (ok : List O → O → Prop) (iok : List O → O → Prop) (b : Book O) : List (SOp O) → Prop
  | [] => True
  | op :: ops => b.Legal2 ok iok op ∧ (b.step op).LegalAll2 ok iok ops

/-- In-place calls only on trees started after the first `n0`. -/
def OwnInp (n0 : Nat) (b : Book O) : SOp O → Prop
  | .inp i _ => ∀ v, b.vs[i]? = some v → n0 ≤ v.1
  | _ => True

/-- Invariant: `T` lists for every root its book entry and footprint; footprints of different origin are disjoint.  Trees started
after the first `n0` lie above the address `base`. -/
def OInv (I : OImpl D O R) (n0 base m : Nat) (s : OStore D R) (b : Book O) : Prop :=
  ∃ T : List ((R × (Addr → Prop)) × Nat × List O),
    (base ≤ s.heap.next ∧ n0 ≤ b.next ∧ ∀ t ∈ T, n0 ≤ t.2.1 → ∀ x, t.1.2 x → base ≤ x) ∧ s.heap.Ok ∧ s.roots = T.map (fun t => t.1.1) ∧ b.vs = T.map (·.2) ∧
    (∀ t ∈ T, I.Obj s.heap t.1.1 t.2.2 t.1.2 ∧ t.2.1 < b.next ∧ t.2.2.length ≤ m) ∧
    ∀ t ∈ T, ∀ u ∈ T, t.2.1 ≠ u.2.1 → ∀ x, ¬ (t.1.2 x ∧ u.1.2 x)

theorem ostep_inv {I : OImpl D O R} {n n0 base m : Nat} (hI : I.Lawful n) (hm : m < n) {s : OStore D R} {b : Book O} (h : OInv I n0 base m s b) (op : SOp O)
    (hl : b.Legal2 I.cowOk I.inpOk op) (ho : OwnInp n0 b op) : ∃ s', s.step I op = .ok s' ∧ OInv I n0 base (m + 1) s' (b.step op) ∧
      wp (fun a => base ≤ a) (stepP I s.roots op) (fun _ _ => True) s.heap := by
  obtain ⟨T, ⟨g1, g2, g3⟩, hk, h1, h2, h3, h4⟩ := h
  cases op with
  | fresh =>
    have hwp := hI.fresh_ok s.heap
    obtain ⟨p, h', r1, ⟨F', r2, r4⟩, r5, r6⟩ := wp_run hwp
    refine ⟨⟨h', s.roots ++ [p]⟩, by simp [OStore.step, r1], ⟨T ++ [((p, F'), b.next, [])], ⟨Nat.le_trans g1 r5, by simp [Book.step]; omega, ?_⟩, run_ok hwp hk r1, by simp [h1], by simp [Book.step, h2], ?_, ?_⟩, ?_⟩
    · intro t ht hn x hx
      rw [List.mem_append, List.mem_singleton] at ht
      rcases ht with ht | rfl
      · exact g3 t ht hn x hx
      · exact Nat.le_trans g1 (r4 x hx)
    · intro t ht
      rw [List.mem_append, List.mem_singleton] at ht
      rcases ht with ht | rfl
      · obtain ⟨a, d, e⟩ := h3 t ht
        refine ⟨hI.frame a r5 fun x hx => ?_, by simp [Book.step]; omega, by omega⟩
        have := hI.lt a hx
        exact r6 x this (by omega)
      · exact ⟨r2, by simp [Book.step], by simp⟩
    · have key : ∀ u ∈ T, ∀ x, ¬ (F' x ∧ u.1.2 x) := by
        rintro u hu x ⟨x1, x2⟩
        have := hI.lt (h3 u hu).1 x2
        have := r4 x x1
        omega
      intro t ht u hu hne x
      rw [List.mem_append, List.mem_singleton] at ht hu
      rcases ht with ht | rfl
      · rcases hu with hu | rfl
        · exact h4 t ht u hu hne x
        · exact fun q => key t ht x ⟨q.2, q.1⟩
      · rcases hu with hu | rfl
        · exact fun q => key u hu x q
        · exact absurd rfl hne
    · simp only [stepP, wp_bind, wp_pure]
      exact wp_mono (fun a ha => Nat.le_trans g1 ha) (fun _ _ _ => trivial) hwp
  | drop i =>
    refine ⟨_, rfl, ⟨T.eraseIdx i, ⟨g1, g2, fun t ht => g3 t (List.mem_of_mem_eraseIdx ht)⟩, hk, by simp [h1, map_eraseIdx], by simp [Book.step, h2, map_eraseIdx], ?_, ?_⟩, trivial⟩
    · intro t ht
      obtain ⟨a, d, e⟩ := h3 t (List.mem_of_mem_eraseIdx ht)
      exact ⟨a, d, by omega⟩
    · intro t ht u hu; exact h4 t (List.mem_of_mem_eraseIdx ht) u (List.mem_of_mem_eraseIdx hu)
  | cow i o =>
    cases hT : T[i]? with
    | none =>
      have e1 : s.roots[i]? = none := by simp [h1, hT]
      have e2 : b.vs[i]? = none := by simp [h2, hT]
      refine ⟨s, by simp [OStore.step, e1], ⟨T, ⟨g1, by simp only [Book.step, e2]; exact g2, g3⟩, hk, h1, ?_, ?_⟩, by simp [stepP, e1]⟩
      · simp only [Book.step, e2]; exact h2
      · simp only [Book.step, e2]
        exact ⟨fun t ht => by obtain ⟨a, d, e⟩ := h3 t ht; exact ⟨a, d, by omega⟩, h4⟩
    | some t =>
      have e1 : s.roots[i]? = some t.1.1 := by simp [h1, hT]
      have e2 : b.vs[i]? = some t.2 := by simp [h2, hT]
      have ht : t ∈ T := List.mem_of_getElem? hT
      obtain ⟨a1, a4, a5⟩ := h3 t ht
      have hwp := hI.cow_ok t.2.2 o t.1.1 s.heap t.1.2 (by omega) (hl t.2 e2) a1
      obtain ⟨p, h', r1, ⟨F', r2, r4⟩, r5, r6⟩ := wp_run hwp
      refine ⟨⟨h', s.roots ++ [p]⟩, by simp [OStore.step, e1, r1], ⟨T ++ [((p, F'), t.2.1, o :: t.2.2)], ⟨Nat.le_trans g1 r5, by simp only [Book.step, e2]; exact g2, ?_⟩, run_ok hwp hk r1, by simp [h1], by simp only [Book.step, e2]; simp [h2], ?_, ?_⟩, ?_⟩
      · intro u hu hn x hx
        rw [List.mem_append, List.mem_singleton] at hu
        rcases hu with hu | rfl
        · exact g3 u hu hn x hx
        · rcases r4 x hx with k | k
          · exact Nat.le_trans g1 k
          · exact g3 t ht hn x k
      · intro u hu
        rw [List.mem_append, List.mem_singleton] at hu
        have hn : (b.step (.cow i o)).next = b.next := by simp [Book.step, e2]
        rw [hn]
        rcases hu with hu | rfl
        · obtain ⟨b1, b4, b5⟩ := h3 u hu
          refine ⟨hI.frame b1 r5 fun a ha => ?_, b4, by omega⟩
          have := hI.lt b1 ha
          exact r6 a this (by omega)
        · exact ⟨r2, a4, by simp; omega⟩
      · have key : ∀ u ∈ T, t.2.1 ≠ u.2.1 → ∀ x, ¬ (F' x ∧ u.1.2 x) := by
          rintro u hu hne x ⟨x1, x2⟩
          have k3 := hI.lt (h3 u hu).1 x2
          rcases r4 x x1 with k2 | k2
          · omega
          · exact h4 t ht u hu hne x ⟨k2, x2⟩
        intro u hu v hv hne x
        rw [List.mem_append, List.mem_singleton] at hu hv
        rcases hu with hu | rfl
        · rcases hv with hv | rfl
          · exact h4 u hu v hv hne x
          · exact fun q => key u hu (fun e => hne e.symm) x ⟨q.2, q.1⟩
        · rcases hv with hv | rfl
          · exact key v hv hne x
          · exact absurd rfl hne
      · simp only [stepP, e1, wp_bind, wp_pure]
        exact wp_mono (fun a ha => Nat.le_trans g1 ha) (fun _ _ _ => trivial) hwp
  | inp i o =>
    cases hT : T[i]? with
    | none =>
      have e1 : s.roots[i]? = none := by simp [h1, hT]
      have e2 : b.vs[i]? = none := by simp [h2, hT]
      refine ⟨s, by simp [OStore.step, e1], ⟨T, ⟨g1, by simp only [Book.step, e2]; exact g2, g3⟩, hk, h1, ?_, ?_⟩, by simp [stepP, e1]⟩
      · simp only [Book.step, e2]; exact h2
      · simp only [Book.step, e2]
        exact ⟨fun t ht => by obtain ⟨a, d, e⟩ := h3 t ht; exact ⟨a, d, by omega⟩, h4⟩
    | some t =>
      have e1 : s.roots[i]? = some t.1.1 := by simp [h1, hT]
      have e2 : b.vs[i]? = some t.2 := by simp [h2, hT]
      have ht : t ∈ T := List.mem_of_getElem? hT
      obtain ⟨a1, a4, a5⟩ := h3 t ht
      have hl := hl t.2 e2
      have hwp := hI.inp_ok t.2.2 o t.1.1 s.heap t.1.2 (by omega) hl.1 a1
      obtain ⟨p, h', r1, ⟨F', r2, r4⟩, r5, r6⟩ := wp_run hwp
      have hil : i < T.length := by
        rcases Nat.lt_or_ge i T.length with h | h
        · exact h
        · simp [List.getElem?_eq_none h] at hT
      have others : ∀ u ∈ T.set i ((p, F'), t.2.1, o :: t.2.2), u = ((p, F'), t.2.1, o :: t.2.2) ∨ (u ∈ T ∧ t.2.1 ≠ u.2.1) := by
        intro u hu
        obtain ⟨j, hj⟩ := List.mem_iff_getElem?.1 hu
        rw [List.getElem?_set] at hj
        by_cases e : i = j
        · subst e
          simp [hil] at hj; exact .inl hj.symm
        · rw [if_neg e] at hj
          refine .inr ⟨List.mem_of_getElem? hj, ?_⟩
          have := hl.2 j u.2 (fun h => e h.symm) (by simp [h2, hj])
          exact fun h => this h.symm
      refine ⟨⟨h', s.roots.set i p⟩, by simp [OStore.step, e1, r1], ⟨T.set i ((p, F'), t.2.1, o :: t.2.2), ⟨Nat.le_trans g1 r5, by simp only [Book.step, e2]; exact g2, ?_⟩, run_ok hwp hk r1, by simp [h1, List.map_set], by simp only [Book.step, e2]; simp [h2, List.map_set], ?_, ?_⟩, ?_⟩
      · intro u hu hn x hx
        rcases others u hu with rfl | ⟨hu, _⟩
        · rcases r4 x hx with k | k
          · exact Nat.le_trans g1 k
          · exact g3 t ht hn x k
        · exact g3 u hu hn x hx
      · intro u hu
        have hn : (b.step (.inp i o)).next = b.next := by simp [Book.step, e2]
        rw [hn]
        rcases others u hu with rfl | ⟨hu, hne⟩
        · exact ⟨r2, a4, by simp; omega⟩
        · obtain ⟨b1, b4, b5⟩ := h3 u hu
          refine ⟨hI.frame b1 r5 fun a ha => ?_, b4, by omega⟩
          have := hI.lt b1 ha
          refine r6 a (by omega) ?_
          rintro (q | q)
          · exact h4 t ht u hu hne a ⟨q, ha⟩
          · omega
      · have key : ∀ u ∈ T, t.2.1 ≠ u.2.1 → ∀ x, ¬ (F' x ∧ u.1.2 x) := by
          rintro u hu hne x ⟨x1, x2⟩
          have k3 := hI.lt (h3 u hu).1 x2
          rcases r4 x x1 with k2 | k2
          · omega
          · exact h4 t ht u hu hne x ⟨k2, x2⟩
        intro u hu v hv hne x
        rcases others u hu with rfl | ⟨hu, _⟩
        · rcases others v hv with rfl | ⟨hv, _⟩
          · exact absurd rfl hne
          · exact key v hv hne x
        · rcases others v hv with rfl | ⟨hv, _⟩
          · exact fun q => key u hu (fun e => hne e.symm) x ⟨q.2, q.1⟩
          · exact h4 u hu v hv hne x
      · simp only [stepP, e1, wp_bind, wp_pure]
        refine wp_mono (fun a ha => ?_) (fun _ _ _ => trivial) hwp
        rcases ha with ha | ha
        · exact g3 t ht (ho t.2 e2) a ha
        · exact Nat.le_trans g1 ha

theorem oexec_inv {I : OImpl D O R} {n m : Nat} (hI : I.Lawful n) {s : OStore D R} {b : Book O} (h : OInv I 0 0 m s b) (ops : List (SOp O))
    (hm : m + ops.length ≤ n) (hl : b.LegalAll2 I.cowOk I.inpOk ops) : ∃ s', s.exec I ops = .ok s' ∧ OInv I 0 0 (m + ops.length) s' (b.exec ops) := by
  induction ops generalizing s b m with
  | nil => exact ⟨s, rfl, h⟩
  | cons op ops ih =>
    simp only [List.length_cons] at hm
    obtain ⟨s1, e1, i1, _⟩ := ostep_inv hI (by omega) h op hl.1 (by cases op <;> simp [OwnInp])
    obtain ⟨s2, e2, i2⟩ := ih i1 (by omega) hl.2
    refine ⟨s2, by simp [OStore.exec, e1, e2], ?_⟩
    rw [List.length_cons, Nat.add_comm _ 1, ← Nat.add_assoc]; exact i2

theorem oinv_init (I : OImpl D O R) : OInv I 0 0 0 OStore.init Book.init := ⟨[], by simp, Heap.ok_empty, rfl, rfl, by simp, by simp⟩

variable {I : OImpl D O R} {n : Nat}

/-- In every legal history every held root is what its own chain of calls makes. -/
theorem obj_history (hI : I.Lawful n) (ops : List (SOp O)) (hn : ops.length ≤ n) (hl : (Book.init : Book O).LegalAll2 I.cowOk I.inpOk ops) :
    ∃ s, OStore.init.exec I ops = .ok s ∧ s.heap.Ok ∧ s.roots.length = (Book.init.exec ops).vs.length ∧
      ∀ (i : Nat) r v, s.roots[i]? = some r → (Book.init.exec ops).vs[i]? = some v → v.2.length ≤ n ∧ ∃ F, I.Obj s.heap r v.2 F := by
  obtain ⟨s, e, T, _, hk, h1, h2, h3, h4⟩ := oexec_inv hI (oinv_init I) ops (by omega) hl
  refine ⟨s, e, hk, by simp [h1, h2], fun i r v hr hv => ?_⟩
  rw [h1, List.getElem?_map] at hr
  rw [h2, List.getElem?_map] at hv
  cases hT : T[i]? with
  | none => simp [hT] at hr
  | some t =>
    simp only [hT, Option.map_some, Option.some.injEq] at hr hv
    subst hr hv
    obtain ⟨a1, _, a5⟩ := h3 t (List.mem_of_getElem? hT)
    exact ⟨by omega, _, a1⟩

/-- Histories without in-place calls and without forgetting roots keep the earlier roots. -/
theorem ostore_cowOnly {ops : List (SOp O)} (hc : CowOnly ops) {s s' : OStore D R} (he : s.exec I ops = .ok s') {i : Nat} {r : R}
    (hr : s.roots[i]? = some r) : s'.roots[i]? = some r := by
  induction ops generalizing s with
  | nil => cases he; exact hr
  | cons op ops ih =>
    have hlt : i < s.roots.length := by
      rcases Nat.lt_or_ge i s.roots.length with h | h
      · exact h
      · simp [List.getElem?_eq_none h] at hr
    simp only [OStore.exec] at he
    cases op with
    | fresh =>
      cases hs : s.step I .fresh with
      | error e => rw [hs] at he; cases he
      | ok s1 =>
        rw [hs] at he
        refine ih hc he ?_
        simp only [OStore.step] at hs
        split at hs
        · cases hs; simp only; rw [List.getElem?_append_left hlt]; exact hr
        · cases hs
    | cow j o =>
      cases hs : s.step I (.cow j o) with
      | error e => rw [hs] at he; cases he
      | ok s1 =>
        rw [hs] at he
        refine ih hc he ?_
        simp only [OStore.step] at hs
        split at hs
        · cases hs; exact hr
        · split at hs
          · cases hs; simp only; rw [List.getElem?_append_left hlt]; exact hr
          · cases hs
    | inp i o => exact hc.elim
    | drop i => exact hc.elim

theorem legalAll2_cowOnly {ok iok : List O → O → Prop} (hok : ∀ l o, ok l o) {ops : List (SOp O)} (hc : CowOnly ops) (b : Book O) : b.LegalAll2 ok iok ops := by
  induction ops generalizing b with
  | nil => trivial
  | cons op ops ih =>
    cases op with
    | fresh => exact ⟨trivial, ih hc _⟩
    | cow j o => exact ⟨fun v _ => hok _ o, ih hc _⟩
    | inp i o => exact hc.elim
    | drop i => exact hc.elim

/-- Copy-on-write calls leave what earlier roots stand for. -/
theorem obj_persist (hI : I.Lawful n) (pre post : List (SOp O)) (hn : pre.length + post.length ≤ n) (hc : CowOnly post)
    (hl : (Book.init : Book O).LegalAll2 I.cowOk I.inpOk pre) (hl2 : (Book.init.exec pre).LegalAll2 I.cowOk I.inpOk post) :
    ∃ s s', OStore.init.exec I pre = .ok s ∧ s.exec I post = .ok s' ∧
      ∀ (i : Nat) r, s.roots[i]? = some r → s'.roots[i]? = some r ∧ ∃ l F F', I.Obj s.heap r l F ∧ I.Obj s'.heap r l F' ∧ l.length ≤ n := by
  obtain ⟨s, e1, i1⟩ := oexec_inv hI (oinv_init I) pre (by omega) hl
  obtain ⟨s', e2, i2⟩ := oexec_inv hI i1 post (by omega) hl2
  obtain ⟨T, _, _, a1, a2, a3, _⟩ := i1
  obtain ⟨T', _, _, b1, b2, b3, _⟩ := i2
  refine ⟨s, s', e1, e2, fun i r hr => ?_⟩
  have hr' := ostore_cowOnly hc e2 hr
  refine ⟨hr', ?_⟩
  rw [a1, List.getElem?_map] at hr
  cases hT : T[i]? with
  | none => simp [hT] at hr
  | some t =>
    have hv : (Book.init.exec pre).vs[i]? = some t.2 := by simp [a2, hT]
    have hv' := book_cowOnly hc _ hv
    rw [b2, List.getElem?_map] at hv'
    rw [b1, List.getElem?_map] at hr'
    cases hT' : T'[i]? with
    | none => simp [hT'] at hr'
    | some t' =>
      simp only [hT, Option.map_some, Option.some.injEq] at hr
      simp only [hT', Option.map_some, Option.some.injEq] at hr' hv'
      obtain ⟨c1, _, c5⟩ := a3 t (List.mem_of_getElem? hT)
      obtain ⟨d1, _, _⟩ := b3 t' (List.mem_of_getElem? hT')
      rw [hv', hr'] at d1
      rw [hr] at c1
      exact ⟨t.2.2, _, _, c1, d1, by omega⟩

/-- An in-place call on an exclusively held object, and a copy-on-write call on the same object. -/
theorem obj_inplace (hI : I.Lawful n) (ops : List (SOp O)) (hn : ops.length < n) (hl : (Book.init : Book O).LegalAll2 I.cowOk I.inpOk ops)
    (i : Nat) (o o' : O) (hc : (Book.init.exec ops).Legal2 I.cowOk I.inpOk (.cow i o')) (hi : (Book.init.exec ops).Legal2 I.cowOk I.inpOk (.inp i o)) :
    ∃ s, OStore.init.exec I ops = .ok s ∧ ∀ r v, s.roots[i]? = some r → (Book.init.exec ops).vs[i]? = some v → v.2.length < n ∧
      (∃ r' h' F F', I.Obj s.heap r v.2 F ∧ (I.inp o r).run s.heap = .ok (r', h') ∧ I.Obj h' r' (o :: v.2) F' ∧
        (∀ (j : Nat) q u, j ≠ i → s.roots[j]? = some q → (Book.init.exec ops).vs[j]? = some u → u.2.length ≤ n ∧ ∃ F, I.Obj h' q u.2 F) ∧
        ∀ a, a < s.heap.next → ¬ F a → h'.mem a = s.heap.mem a) ∧
      ∃ r' h' F', (I.cow o' r).run s.heap = .ok (r', h') ∧ I.Obj h' r' (o' :: v.2) F' ∧ ∀ a, a < s.heap.next → h'.mem a = s.heap.mem a := by
  obtain ⟨s, e, T, _, hk, h1, h2, h3, h4⟩ := oexec_inv hI (oinv_init I) ops (by omega) hl
  refine ⟨s, e, fun r v hr hv => ?_⟩
  rw [h1, List.getElem?_map] at hr
  cases hT : T[i]? with
  | none => simp [hT] at hr
  | some t =>
    have hv2 := hv
    rw [h2, List.getElem?_map] at hv
    simp only [hT, Option.map_some, Option.some.injEq] at hr hv
    subst hr hv
    obtain ⟨a1, _, a5⟩ := h3 t (List.mem_of_getElem? hT)
    refine ⟨by omega, ?_, ?_⟩
    · obtain ⟨p, h', r1, ⟨F', r2, r4⟩, r5, r6⟩ := wp_run (hI.inp_ok t.2.2 o t.1.1 s.heap t.1.2 (by omega) (hi t.2 hv2).1 a1)
      refine ⟨_, h', _, F', a1, r1, r2, ?_, fun a ha hF => r6 a ha ?_⟩
      · intro j q u hj hq hu
        have hu2 := hu
        rw [h1, List.getElem?_map] at hq
        rw [h2, List.getElem?_map] at hu
        cases hTj : T[j]? with
        | none => simp [hTj] at hq
        | some y =>
          simp only [hTj, Option.map_some, Option.some.injEq] at hq hu
          subst hq hu
          obtain ⟨b1, _, b5⟩ := h3 y (List.mem_of_getElem? hTj)
          have hne := (hi t.2 hv2).2 j y.2 hj hu2
          refine ⟨by omega, _, hI.frame b1 r5 fun a ha => ?_⟩
          have := hI.lt b1 ha
          refine r6 a (by omega) ?_
          rintro (q | q)
          · exact h4 t (List.mem_of_getElem? hT) y (List.mem_of_getElem? hTj) (fun h => hne h.symm) a ⟨q, ha⟩
          · omega
      · rintro (q | q)
        · exact hF q
        · omega
    · obtain ⟨p, h', r1, ⟨F', r2, r4⟩, r5, r6⟩ := wp_run (hI.cow_ok t.2.2 o' t.1.1 s.heap t.1.2 (by omega) (hc t.2 hv2) a1)
      exact ⟨_, h', F', r1, r2, fun a ha => r6 a ha (by omega)⟩

/-- Reading while a copy-on-write call runs, for any read-only program that answers `P`. -/
theorem obj_duo (hI : I.Lawful n) (ops : List (SOp O)) (hn : ops.length < n) (hl : (Book.init : Book O).LegalAll2 I.cowOk I.inpOk ops) (o : O)
    (sched : List Bool) {α : Type} (Rd : R → Prog D α) (ro : ∀ r, (Rd r).ReadOnly) (P : List O → α → Prop)
    (hR : ∀ h r l F, l.length ≤ n → I.Obj h r l F → wp (fun _ => False) (Rd r) (fun x _ => P l x) h) :
    ∃ s, OStore.init.exec I ops = .ok s ∧ ∀ (i j : Nat) r v q, s.roots[i]? = some r → (Book.init.exec ops).vs[i]? = some v → s.roots[j]? = some q →
      (Book.init.exec ops).Legal2 I.cowOk I.inpOk (.cow j o) →
      let W := I.cow o q
      let e := (Duo.mk (Rd r) W s.heap).exec sched
      (∀ x, e.reader ≠ .stop x) ∧ (∀ x, e.writer ≠ .stop x) ∧ ((Rd r).left s.heap ≤ sched.count true → ∃ x, e.reader = .ret x) ∧
      (∀ x, e.reader = .ret x → P v.2 x) ∧ ∀ y, e.writer = .ret y → W.run s.heap = .ok (y, e.heap) := by
  obtain ⟨s, e, T, _, hk, h1, h2, h3, h4⟩ := oexec_inv hI (oinv_init I) ops (by omega) hl
  refine ⟨s, e, fun i j r v q hr hv hq hc => ?_⟩
  rw [h1, List.getElem?_map] at hr hq
  rw [h2, List.getElem?_map] at hv
  cases hT : T[i]? with
  | none => simp [hT] at hr
  | some t =>
  cases hTj : T[j]? with
  | none => simp [hTj] at hq
  | some u =>
    simp only [hT, hTj, Option.map_some, Option.some.injEq] at hr hv hq
    subst hr hv hq
    obtain ⟨a1, _, a5⟩ := h3 t (List.mem_of_getElem? hT)
    obtain ⟨b1, _, b5⟩ := h3 u (List.mem_of_getElem? hTj)
    have hc := hc u.2 (by simp [h2, hTj])
    have := duo_result hk (Rd t.1.1) (I.cow o u.1.1) (ro _)
      (hR s.heap t.1.1 t.2.2 _ (by omega) a1) (hI.cow_ok u.2.2 o u.1.1 s.heap _ (by omega) hc b1) sched
    refine ⟨this.1, this.2.2.2.1, this.2.2.1, fun x hx => ?_, this.2.2.2.2⟩
    obtain ⟨h', _, hx2⟩ := this.2.1 x hx
    exact hx2

end Verif.Heap
