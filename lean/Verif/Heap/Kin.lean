import Verif.Heap.Obj
import Verif.Heap.Shared

/-!
# Histories in which objects modified in place share nodes with other objects

As `Shared.lean`, for objects that are more than one tree, and with the origins of the objects kept: an in-place call may also act on
other objects of the same origin, never on objects of another origin.
-/

namespace Verif.Heap
open Prog

variable {D O R G : Type}

/-- What has to be proved: `K` says what an object stands for, given some further knowledge `g` about the memory that all objects share.
Copy-on-write calls leave all objects as they are; an in-place call leaves another object as it is or does the same to it, and
objects with no address in common are left as they are. -/
structure OImpl.Kin (I : OImpl D O R) (K : G → Heap D → R → List O → (Addr → Prop) → Prop) : Prop where
  fresh_ok : ∀ g h, wp (fun a => h.next ≤ a) I.fresh (fun r h' => ∃ g' F, K g' h' r [] F ∧ (∀ x, F x → h.next ≤ x) ∧ ∀ q l E, K g h q l E → K g' h' q l E) h
  lt : ∀ {g h r l F a}, K g h r l F → F a → a < h.next
  cow_ok : ∀ (l : List O) (o : O) (r : R) g h F, I.cowOk l o → K g h r l F →
    wp (fun a => h.next ≤ a) (I.cow o r) (fun r' h' => ∃ g' F', K g' h' r' (o :: l) F' ∧ (∀ x, F' x → h.next ≤ x ∨ F x) ∧ ∀ q l E, K g h q l E → K g' h' q l E) h
  inp_ok : ∀ (l : List O) (o : O) (r : R) g h F, I.inpOk l o → K g h r l F →
    wp (fun a => F a ∨ h.next ≤ a) (I.inp o r) (fun r' h' => ∃ g' F', K g' h' r' (o :: l) F' ∧ (∀ x, F' x → h.next ≤ x ∨ F x) ∧
      ∀ q l2 E, K g h q l2 E → (∃ l2' E', K g' h' q l2' E' ∧ (∀ x, E' x → h.next ≤ x ∨ E x) ∧ (l2' = l2 ∨ l2' = o :: l2)) ∧
        ((∀ x, ¬ (F x ∧ E x)) → K g' h' q l2 E)) h

/-- What a call does to the record of a client, if an in-place call may also act on other objects of the same origin. -/
inductive KinStep : Book O → SOp O → Book O → Prop where
  | fresh {b} : KinStep b .fresh (b.step .fresh)
  | cow {b i o} : KinStep b (.cow i o) (b.step (.cow i o))
  | drop {b i} : KinStep b (.drop i) (b.step (.drop i))
  | inp {b b' i o v} : b.vs[i]? = some v → b'.next = b.next → b'.vs.length = b.vs.length → b'.vs[i]? = some (v.1, o :: v.2) →
      (∀ (j : Nat) u, b.vs[j]? = some u → b'.vs[j]? = some u ∨ (u.1 = v.1 ∧ b'.vs[j]? = some (u.1, o :: u.2))) → KinStep b (.inp i o) b'
  | inpOut {b i o} : b.vs[i]? = none → KinStep b (.inp i o) b

/-- The same for a list of calls. -/
inductive KinRun : Book O → List (SOp O) → Book O → Prop where
  | nil {b} : KinRun b [] b
  | cons {b b' b'' op ops} : KinStep b op b' → KinRun b' ops b'' → KinRun b (op :: ops) b''

/-- Calls of the right kind, on any object. -/
def KinLegal (ok : O → Prop) : List (SOp O) → Prop
  | [] => True
  | .inp _ o :: ops => ok o ∧ KinLegal ok ops
  | _ :: ops => KinLegal ok ops

/-- Every root has its object; objects of different origin have no address in common. -/
def KInv (K : G → Heap D → R → List O → (Addr → Prop) → Prop) (g : G) (s : OStore D R) (b : Book O) : Prop :=
  ∃ T : List ((R × (Addr → Prop)) × Nat × List O), s.heap.Ok ∧ s.roots = T.map (fun t => t.1.1) ∧ b.vs = T.map (·.2) ∧
    (∀ t ∈ T, K g s.heap t.1.1 t.2.2 t.1.2 ∧ t.2.1 < b.next) ∧ ∀ t ∈ T, ∀ u ∈ T, t.2.1 ≠ u.2.1 → ∀ x, ¬ (t.1.2 x ∧ u.1.2 x)

theorem kstep {I : OImpl D O R} {K : G → Heap D → R → List O → (Addr → Prop) → Prop} (hI : I.Kin K) (ok : O → Prop) (hok : ∀ l o, ok o → I.inpOk l o)
    (hco : ∀ l o, I.cowOk l o) {g : G} {s : OStore D R} {b : Book O} (h : KInv K g s b) (op : SOp O) (hl : ∀ i o, op = .inp i o → ok o) :
    ∃ s' b' g', s.step I op = .ok s' ∧ KinStep b op b' ∧ KInv K g' s' b' := by
  obtain ⟨T, hk, h1, h2, h3, h4⟩ := h
  cases op with
  | fresh =>
    have hw := hI.fresh_ok g s.heap
    obtain ⟨p, h', r1, ⟨g', F', r2, r3, r4⟩, r5, r6⟩ := wp_run hw
    refine ⟨⟨h', s.roots ++ [p]⟩, _, g', by simp [OStore.step, r1], .fresh, T ++ [((p, F'), b.next, [])], run_ok hw hk r1, by simp [h1], by simp [Book.step, h2], ?_, ?_⟩
    · intro t ht
      rw [List.mem_append, List.mem_singleton] at ht
      rcases ht with ht | rfl
      · obtain ⟨a, d⟩ := h3 t ht
        exact ⟨r4 _ _ _ a, by simp [Book.step]; omega⟩
      · exact ⟨r2, by simp [Book.step]⟩
    · have key : ∀ u ∈ T, ∀ x, ¬ (F' x ∧ u.1.2 x) := by
        rintro u hu x ⟨x1, x2⟩
        have := hI.lt (h3 u hu).1 x2
        have := r3 x x1
        omega
      intro t ht u hu hne x
      rw [List.mem_append, List.mem_singleton] at ht hu
      rcases ht with ht | rfl
      · rcases hu with hu | rfl
        · exact h4 t ht u hu hne x
        · exact fun q => key t ht x ⟨q.2, q.1⟩
      · rcases hu with hu | rfl
        · exact fun q => key u hu x q
        · exact absurd rfl hne
  | drop i =>
    exact ⟨_, _, g, rfl, .drop, T.eraseIdx i, hk, by simp [h1, map_eraseIdx], by simp [Book.step, h2, map_eraseIdx], fun t ht => h3 t (List.mem_of_mem_eraseIdx ht),
      fun t ht u hu => h4 t (List.mem_of_mem_eraseIdx ht) u (List.mem_of_mem_eraseIdx hu)⟩
  | cow i o =>
    cases hT : T[i]? with
    | none =>
      have e1 : s.roots[i]? = none := by simp [h1, hT]
      have e2 : b.vs[i]? = none := by simp [h2, hT]
      have e3 : b.step (.cow i o) = b := by simp [Book.step, e2]
      exact ⟨s, _, g, by simp [OStore.step, e1], .cow, by rw [e3]; exact ⟨T, hk, h1, h2, h3, h4⟩⟩
    | some t =>
      have e1 : s.roots[i]? = some t.1.1 := by simp [h1, hT]
      have e2 : b.vs[i]? = some t.2 := by simp [h2, hT]
      have ht : t ∈ T := List.mem_of_getElem? hT
      obtain ⟨a1, a4⟩ := h3 t ht
      have hw := hI.cow_ok t.2.2 o t.1.1 g s.heap t.1.2 (hco _ _) a1
      obtain ⟨p, h', r1, ⟨g', F', r2, r3, r4⟩, r5, r6⟩ := wp_run hw
      refine ⟨⟨h', s.roots ++ [p]⟩, _, g', by simp [OStore.step, e1, r1], .cow, T ++ [((p, F'), t.2.1, o :: t.2.2)], run_ok hw hk r1, by simp [h1],
        by simp only [Book.step, e2]; simp [h2], ?_, ?_⟩
      · intro u hu
        rw [List.mem_append, List.mem_singleton] at hu
        have hn : (b.step (.cow i o)).next = b.next := by simp [Book.step, e2]
        rw [hn]
        rcases hu with hu | rfl
        · exact ⟨r4 _ _ _ (h3 u hu).1, (h3 u hu).2⟩
        · exact ⟨r2, a4⟩
      · have key : ∀ u ∈ T, t.2.1 ≠ u.2.1 → ∀ x, ¬ (F' x ∧ u.1.2 x) := by
          rintro u hu hne x ⟨x1, x2⟩
          have k3 := hI.lt (h3 u hu).1 x2
          rcases r3 x x1 with k2 | k2
          · omega
          · exact h4 t ht u hu hne x ⟨k2, x2⟩
        intro u hu v hv hne x
        rw [List.mem_append, List.mem_singleton] at hu hv
        rcases hu with hu | rfl
        · rcases hv with hv | rfl
          · exact h4 u hu v hv hne x
          · exact fun q => key u hu (fun e => hne e.symm) x ⟨q.2, q.1⟩
        · rcases hv with hv | rfl
          · exact key v hv hne x
          · exact absurd rfl hne
  | inp i o =>
    cases hT : T[i]? with
    | none =>
      exact ⟨s, b, g, by simp [OStore.step, h1, hT], .inpOut (by simp [h2, hT]), T, hk, h1, h2, h3, h4⟩
    | some t =>
      have e1 : s.roots[i]? = some t.1.1 := by simp [h1, hT]
      have e2 : b.vs[i]? = some t.2 := by simp [h2, hT]
      have ht : t ∈ T := List.mem_of_getElem? hT
      obtain ⟨a1, a4⟩ := h3 t ht
      have hw := hI.inp_ok t.2.2 o t.1.1 g s.heap t.1.2 (hok _ _ (hl i o rfl)) a1
      obtain ⟨p, h', r1, ⟨g', F', r2, r3, r4⟩, r5, r6⟩ := wp_run hw
      -- every other object after the call
      obtain ⟨U, hU1, hU2⟩ := exists_map (fun (u u' : (R × (Addr → Prop)) × Nat × List O) => u'.1.1 = u.1.1 ∧ u'.2.1 = u.2.1 ∧ K g' h' u'.1.1 u'.2.2 u'.1.2 ∧
          (∀ x, u'.1.2 x → s.heap.next ≤ x ∧ u.2.1 = t.2.1 ∨ u.1.2 x) ∧ (u'.2.2 = u.2.2 ∨ u.2.1 = t.2.1 ∧ u'.2.2 = o :: u.2.2)) T (fun u hu => by
        by_cases e : u.2.1 = t.2.1
        · obtain ⟨l2', E', c1, c2, c3⟩ := (r4 u.1.1 u.2.2 u.1.2 (h3 u hu).1).1
          exact ⟨((u.1.1, E'), u.2.1, l2'), rfl, rfl, c1, fun x hx => (c2 x hx).imp_left fun q => ⟨q, e⟩, c3.imp_right fun q => ⟨e, q⟩⟩
        · exact ⟨u, rfl, rfl, (r4 u.1.1 u.2.2 u.1.2 (h3 u hu).1).2 fun x => h4 t ht u hu (fun q => e q.symm) x, fun x => .inr, .inl rfl⟩)
      have hil : i < T.length := (List.getElem?_eq_some_iff.1 hT).1
      have hget : ∀ (j : Nat) (u : (R × (Addr → Prop)) × Nat × List O), T[j]? = some u → ∃ u' : (R × (Addr → Prop)) × Nat × List O, U[j]? = some u' ∧ u'.1.1 = u.1.1 ∧
          u'.2.1 = u.2.1 ∧ K g' h' u'.1.1 u'.2.2 u'.1.2 ∧ (∀ x, u'.1.2 x → s.heap.next ≤ x ∧ u.2.1 = t.2.1 ∨ u.1.2 x) ∧ (u'.2.2 = u.2.2 ∨ u.2.1 = t.2.1 ∧ u'.2.2 = o :: u.2.2) := by
        intro j u hj
        have hjl : j < U.length := by rw [hU1]; exact (List.getElem?_eq_some_iff.1 hj).1
        exact ⟨U[j], List.getElem?_eq_getElem hjl, hU2 j u U[j] hj (List.getElem?_eq_getElem hjl)⟩
      -- the objects after the call, with what they come from
      have hall : ∀ u ∈ U.set i ((p, F'), t.2.1, o :: t.2.2), ∃ z ∈ T, u.2.1 = z.2.1 ∧ K g' h' u.1.1 u.2.2 u.1.2 ∧ ∀ x, u.1.2 x → s.heap.next ≤ x ∧ z.2.1 = t.2.1 ∨ z.1.2 x := by
        intro u hu
        obtain ⟨j, hj⟩ := List.mem_iff_getElem?.1 hu
        rw [List.getElem?_set] at hj
        by_cases e : i = j
        · subst e
          simp [hU1, hil] at hj
          subst hj
          exact ⟨t, ht, rfl, r2, fun x hx => (r3 x hx).imp_left fun q => ⟨q, rfl⟩⟩
        · simp only [e, if_false] at hj
          have hjl : j < T.length := by rw [← hU1]; exact (List.getElem?_eq_some_iff.1 hj).1
          obtain ⟨u', q1, _, q3, q4, q5, _⟩ := hget j _ (List.getElem?_eq_getElem hjl)
          rw [hj] at q1; cases q1
          exact ⟨_, List.getElem_mem hjl, q3, q4, q5⟩
      refine ⟨⟨h', s.roots.set i p⟩, ⟨b.next, (U.set i ((p, F'), t.2.1, o :: t.2.2)).map (·.2)⟩, g', by simp [OStore.step, e1, r1],
        .inp e2 rfl (by simp [h2, hU1]) ?_ ?_, U.set i ((p, F'), t.2.1, o :: t.2.2), run_ok hw hk r1, ?_, rfl, ?_, ?_⟩
      · simp [hU1, hil]
      · intro j d hj
        rw [h2, List.getElem?_map] at hj
        cases hTj : T[j]? with
        | none => simp [hTj] at hj
        | some u =>
          simp only [hTj, Option.map_some, Option.some.injEq] at hj
          subst hj
          obtain ⟨u', q1, _, q3, _, _, q⟩ := hget j u hTj
          rw [List.getElem?_map, List.getElem?_set]
          by_cases e : i = j
          · subst e
            rw [hT] at hTj; cases hTj
            simp [hU1, hil]
          · simp only [e, if_false, q1, Option.map_some, Option.some.injEq]
            rcases q with q | ⟨q, q'⟩
            · exact .inl (Prod.ext q3 q)
            · exact .inr ⟨q, Prod.ext q3 q'⟩
      · apply List.ext_getElem?
        intro j
        rw [h1, List.getElem?_map, List.getElem?_set, List.getElem?_set, List.getElem?_map]
        by_cases e : i = j
        · subst e; simp [hU1, hil]
        · simp only [e, if_false]
          cases hTj : T[j]? with
          | none =>
            have : U[j]? = none := by
              rw [List.getElem?_eq_none_iff] at hTj ⊢; omega
            simp [this]
          | some u =>
            obtain ⟨u', q1, q2, _⟩ := hget j u hTj
            simp [q1, q2]
      · intro u hu
        obtain ⟨z, hz, q1, q2, _⟩ := hall u hu
        exact ⟨q2, by rw [q1]; exact (h3 z hz).2⟩
      · rintro u hu v hv hne x ⟨x1, x2⟩
        obtain ⟨z, hz, q1, _, q3⟩ := hall u hu
        obtain ⟨y, hy, p1, _, p3⟩ := hall v hv
        rw [q1, p1] at hne
        rcases q3 x x1 with ⟨k1, k2⟩ | k
        · rcases p3 x x2 with ⟨k3, k4⟩ | k'
          · exact hne (k2.trans k4.symm)
          · have := hI.lt (h3 y hy).1 k'; omega
        · rcases p3 x x2 with ⟨k3, k4⟩ | k'
          · have := hI.lt (h3 z hz).1 k; omega
          · exact h4 z hz y hy hne x ⟨k, k'⟩

/-- Any history: no call fails, and every root is the object of a chain of calls as `KinRun` allows. -/
theorem kin_history {I : OImpl D O R} {K : G → Heap D → R → List O → (Addr → Prop) → Prop} (hI : I.Kin K) (ok : O → Prop) (hok : ∀ l o, ok o → I.inpOk l o)
    (hco : ∀ l o, I.cowOk l o) (ops : List (SOp O)) : ∀ {g : G} {s : OStore D R} {b : Book O}, KInv K g s b → KinLegal ok ops →
    ∃ s' b' g', s.exec I ops = .ok s' ∧ KinRun b ops b' ∧ KInv K g' s' b' := by
  induction ops with
  | nil => intro g s b h _; exact ⟨s, b, g, rfl, .nil, h⟩
  | cons op ops ih =>
    intro g s b h hl
    obtain ⟨s1, b1, g1, e1, c1, i1⟩ := kstep hI ok hok hco h op (by rintro i o rfl; exact hl.1)
    have hl' : KinLegal ok ops := by cases op <;> first | exact hl | exact hl.2
    obtain ⟨s2, b2, g2, e2, c2, i2⟩ := ih i1 hl'
    exact ⟨s2, b2, g2, by simp [OStore.exec, e1, e2], .cons c1 c2, i2⟩

theorem kinv_init (K : G → Heap D → R → List O → (Addr → Prop) → Prop) (g : G) : KInv K g OStore.init Book.init :=
  ⟨[], Heap.ok_empty, rfl, rfl, by simp, by simp⟩

/-- The objects of the roots. -/
theorem KInv.get {K : G → Heap D → R → List O → (Addr → Prop) → Prop} {g : G} {s : OStore D R} {b : Book O} (h : KInv K g s b) :
    s.roots.length = b.vs.length ∧ ∀ (i : Nat) r v, s.roots[i]? = some r → b.vs[i]? = some v → ∃ F, K g s.heap r v.2 F := by
  obtain ⟨T, _, h1, h2, h3, _⟩ := h
  refine ⟨by simp [h1, h2], fun i r v hr hv => ?_⟩
  rw [h1, List.getElem?_map] at hr
  rw [h2, List.getElem?_map] at hv
  cases hT : T[i]? with
  | none => simp [hT] at hr
  | some t =>
    simp only [hT, Option.map_some, Option.some.injEq] at hr hv
    subst hr hv
    exact ⟨_, (h3 t (List.mem_of_getElem? hT)).1⟩

/-- As long as every in-place call is on an object no other held object shares its origin with, `KinRun` is the client's own record. -/
theorem KinStep.legal {b b' : Book O} {op : SOp O} (h : KinStep b op b') (hl : ∀ i o, op = .inp i o → ∀ v, b.vs[i]? = some v → ∀ j u, j ≠ i → b.vs[j]? = some u → u.1 ≠ v.1) :
    b' = b.step op := by
  cases h with
  | fresh => rfl
  | cow => rfl
  | drop => rfl
  | inpOut e => simp [Book.step, e]
  | @inp _ i o v e e1 e2 e3 e4 =>
    have : b'.vs = b.vs.set i (v.1, o :: v.2) := by
      apply List.ext_getElem?
      intro j
      rw [List.getElem?_set]
      have hil : i < b.vs.length := (List.getElem?_eq_some_iff.1 e).1
      by_cases ej : i = j
      · subst ej; simp [e3, hil]
      · simp only [ej, if_false]
        cases hj : b.vs[j]? with
        | none => rw [List.getElem?_eq_none_iff] at hj ⊢; omega
        | some u =>
          rcases e4 j u hj with q | ⟨q, _⟩
          · exact q
          · exact absurd q (hl i o rfl v e j u (fun q => ej q.symm) hj)
    cases b'
    simp only at this e1
    simp [Book.step, e, this, e1]

/-- No in-place call is on an object of origin `k`; `b` is the client's own record. -/
def Spares (k : Nat) (b : Book O) : List (SOp O) → Prop
  | [] => True
  | op :: ops => (∀ i o v, op = .inp i o → b.vs[i]? = some v → v.1 ≠ k) ∧ Spares k (b.step op) ops

/-- The records agree on the origins, and on the calls of the objects of origin `k`. -/
def Agree (k : Nat) (b c : Book O) : Prop :=
  b.next = c.next ∧ b.vs.length = c.vs.length ∧ ∀ (i : Nat) u v, b.vs[i]? = some u → c.vs[i]? = some v → u.1 = v.1 ∧ (v.1 = k → u = v)

theorem Agree.step {k : Nat} {b c b' : Book O} {op : SOp O} (h : Agree k b c) (hs : KinStep b op b') (hk : ∀ i o v, op = .inp i o → c.vs[i]? = some v → v.1 ≠ k) :
    Agree k b' (c.step op) := by
  obtain ⟨h1, h2, h3⟩ := h
  have hcs : ∀ (i : Nat) v, b.vs[i]? = some v → ∃ u, c.vs[i]? = some u := fun i v hv => by
    have : i < c.vs.length := by rw [← h2]; exact (List.getElem?_eq_some_iff.1 hv).1
    exact ⟨_, List.getElem?_eq_getElem this⟩
  have hcn : ∀ (i : Nat), b.vs[i]? = none → c.vs[i]? = none := fun i hv => by rw [List.getElem?_eq_none_iff] at hv ⊢; omega
  have app : ∀ {x y : Nat × List O}, x.1 = y.1 → (y.1 = k → x = y) → ∀ (i : Nat) u v, (b.vs ++ [x])[i]? = some u → (c.vs ++ [y])[i]? = some v → u.1 = v.1 ∧ (v.1 = k → u = v) := by
    intro x y e1 e2 i u v hu hv
    rcases Nat.lt_trichotomy i b.vs.length with q | q | q
    · rw [List.getElem?_append_left q] at hu
      rw [List.getElem?_append_left (by omega)] at hv
      exact h3 i u v hu hv
    · subst q
      rw [List.getElem?_append_right (by omega)] at hu
      rw [List.getElem?_append_right (by omega)] at hv
      simp [h2] at hu hv
      subst hu hv; exact ⟨e1, e2⟩
    · rw [List.getElem?_eq_none (by simp; omega)] at hu; cases hu
  cases hs with
  | fresh => exact ⟨by simp [Book.step, h1], by simp [Book.step, h2], by simp only [Book.step, h1]; exact app rfl fun _ => rfl⟩
  | @cow i o =>
    cases hb : b.vs[i]? with
    | none => simp only [Book.step, hb, hcn i hb]; exact ⟨h1, h2, h3⟩
    | some u =>
      obtain ⟨v, hc⟩ := hcs i u hb
      have := h3 i u v hb hc
      simp only [Book.step, hb, hc]
      exact ⟨h1, by simp [h2], app this.1 fun q => by rw [this.2 q]⟩
  | @drop i =>
    refine ⟨h1, by simp [Book.step, List.length_eraseIdx, h2], fun j u v hu hv => ?_⟩
    simp only [Book.step, List.getElem?_eraseIdx] at hu hv
    split at hu <;> rename_i q
    · rw [if_pos q] at hv; exact h3 _ _ _ hu hv
    · rw [if_neg q] at hv; exact h3 _ _ _ hu hv
  | @inp _ i o v e e1 e2 e3 e4 =>
    obtain ⟨w, hc⟩ := hcs i v e
    have hw := hk i o w rfl hc
    have ew := (h3 i v w e hc).1
    have hil : i < c.vs.length := (List.getElem?_eq_some_iff.1 hc).1
    simp only [Book.step, hc]
    refine ⟨by simp [e1, h1], by simp [e2, h2], fun j x y hx hy => ?_⟩
    rw [List.getElem?_set] at hy
    by_cases ej : i = j
    · subst ej
      simp [hil] at hy
      rw [e3] at hx; cases hx
      subst hy
      exact ⟨ew, fun q => absurd q hw⟩
    · simp only [ej, if_false] at hy
      have hjl : j < b.vs.length := by rw [← e2]; exact (List.getElem?_eq_some_iff.1 hx).1
      have hb := List.getElem?_eq_getElem hjl
      obtain ⟨z1, z2⟩ := h3 j _ y hb hy
      rcases e4 j _ hb with q | ⟨q, q'⟩
      · rw [hx] at q; cases q; exact ⟨z1, z2⟩
      · rw [hx] at q'; cases q'
        exact ⟨z1, fun z => absurd (by rw [← ew, ← q, z1, z]) hw⟩
  | inpOut e => simp only [Book.step, hcn _ e]; exact ⟨h1, h2, h3⟩

theorem Agree.exec {k : Nat} {ops : List (SOp O)} : ∀ {b c b' : Book O}, Agree k b c → KinRun b ops b' → Spares k c ops → Agree k b' (c.exec ops) := by
  induction ops with
  | nil => intro b c b' h hr _; cases hr; exact h
  | cons op ops ih =>
    intro b c b' h hr hs
    cases hr with
    | cons h1 h2 => exact ih (h.step h1 hs.1) h2 hs.2

end Verif.Heap
