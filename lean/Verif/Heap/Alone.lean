import Verif.Heap.Blind

/-!
# Trees of one origin, with and without the calls on all others

In a history nothing is asked of the calls: in-place calls on trees that share nodes with others, panics the caller recovers from.  Leaving out
the calls on the trees of all other origins changes nothing about the trees of the origin looked at.
-/

namespace Verif.Heap
open Prog
variable {D O R α : Type} {I : OImpl D O R}

/-- Is the tree at position `i` one of origin `o`?  (Positions that are not there count as such: calls on them do nothing.) -/
def Book.of (b : Book O) (o i : Nat) : Bool := (b.vs[i]?).all fun v => v.1 == o

/-- What is left of one call when the calls on trees of origins other than `o` are left out.  Where a copy-on-write call on such a tree returned
one, there is a new empty tree in its place, so that the later positions mean the same; calls that change a tree in place and calls that
panicked are not made at all. -/
def Book.keep (b : Book O) (o : Nat) : SOp O × Bool → List (SOp O × Bool)
  | (.cow i x, t) => if b.of o i then [(.cow i x, t)] else if t then [(.fresh, true)] else []
  | (.inp i x, t) => if b.of o i then [(.inp i x, t)] else []
  | c => [c]

/-- A history without the calls on trees of origins other than `o`. -/
def Book.only (b : Book O) (o : Nat) : List (SOp O × Bool) → List (SOp O × Bool)
  | [] => []
  | (op, t) :: ops => b.keep o (op, t) ++ (if t then b.step op else b).only o ops

/-- Trees of origin `o` are related by `ρ`, the others lie in `S`. -/
def RootOk (Z : I.Blind) (o : Nat) (ρ : Addr → Addr → Prop) (S : Addr → Prop) (t : R × R × Nat × List O) : Prop :=
  (t.2.2.1 = o → Z.rootR ρ t.1 t.2.1) ∧ (t.2.2.1 ≠ o → Z.rootR (Diag S) t.1 t.1)

theorem RootOk.mono {Z : I.Blind} {o : Nat} {ρ σ : Addr → Addr → Prop} {S T : Addr → Prop} {t : R × R × Nat × List O} (h : RootOk Z o ρ S t)
    (h1 : ∀ a b, ρ a b → σ a b) (h2 : ∀ a, S a → T a) : RootOk Z o σ T t :=
  ⟨fun e => Z.root_mono h1 (h.1 e), fun e => Z.root_mono (fun a _ k => ⟨h2 a k.1, k.2⟩) (h.2 e)⟩

/-- The state of a history and that of the history without the calls on other origins. -/
def AInv (Z : I.Blind) (o : Nat) (s s' : OStore D R) (b : Book O) : Prop :=
  ∃ (ρ : Addr → Addr → Prop) (S : Addr → Prop) (T : List (R × R × Nat × List O)), Sep Z ρ S s.heap s'.heap ∧
    s.roots = T.map (·.1) ∧ s'.roots = T.map (·.2.1) ∧ b.vs = T.map (·.2.2) ∧ ∀ t ∈ T, RootOk Z o ρ S t

theorem ainv_init (Z : I.Blind) (o : Nat) : AInv Z o OStore.init OStore.init (Book.init : Book O) :=
  ⟨fun _ _ => False, fun _ => False, [], ⟨Heap.ok_empty, Heap.ok_empty, fun _ _ _ _ h => h.elim, fun _ _ h => h.elim, fun _ h => h.elim,
    fun _ _ h => h.elim, fun _ _ h => h.1.elim⟩, rfl, rfl, rfl, by simp⟩

theorem mem_set {β : Type} {l : List β} {i : Nat} {x y : β} (h : y ∈ l.set i x) : y = x ∨ y ∈ l := by
  rcases List.mem_or_eq_of_mem_set h with h | h
  · exact .inr h
  · exact .inl h

theorem execR_append {s s1 : OStore D R} {a b : List (SOp O × Bool)} (h : s.execR I a = some s1) : s.execR I (a ++ b) = s1.execR I b := by
  induction a generalizing s with
  | nil => cases h; rfl
  | cons x a ih =>
    obtain ⟨op, t⟩ := x
    cases t with
    | true =>
      simp only [OStore.execR, List.cons_append] at h ⊢
      cases h1 : s.step I op with
      | error e => rw [h1] at h; cases h
      | ok s2 => rw [h1] at h; exact ih h
    | false =>
      simp only [OStore.execR, List.cons_append] at h ⊢
      cases h1 : s.recover I op with
      | none => rw [h1] at h; cases h
      | some s2 => rw [h1] at h; exact ih h

theorem res_ok {P : α → α → Prop} {p q : Prog D α} {h h' h1 : Heap D} {x : α} (hr : p.run h = .ok (x, h1)) (hR : ResR P (p.out h).1 (q.out h').1) :
    ∃ y, q.run h' = .ok (y, (q.out h').2) ∧ P x y := by
  rw [out_run] at hr
  rw [hr] at hR
  match e : q.out h' with
  | (.ok y, h2) => rw [e] at hR; exact ⟨y, out_run.2 e, hR⟩
  | (.error _, h2) => rw [e] at hR; exact hR.elim

theorem res_crash {P : α → α → Prop} {p q : Prog D α} {h h' h1 : Heap D} {x : Err} (hr : p.crash h = some (x, h1)) (hR : ResR P (p.out h).1 (q.out h').1) :
    q.crash h' = some (x, (q.out h').2) := by
  rw [out_crash] at hr
  rw [hr] at hR
  match e : q.out h' with
  | (.ok y, h2) => rw [e] at hR; exact hR.elim
  | (.error y, h2) => rw [e] at hR; cases hR; exact out_crash.2 e

theorem of_true {b : Book O} {o i : Nat} {v : Nat × List O} (hv : b.vs[i]? = some v) : b.of o i = true ↔ v.1 = o := by
  simp [Book.of, hv]

/-- One call that returned. -/
theorem astep {Z : I.Blind} {o : Nat} {s s' s1 : OStore D R} {b : Book O} (h : AInv Z o s s' b) (op : SOp O) (he : s.step I op = .ok s1) :
    ∃ s1', s'.execR I (b.keep o (op, true)) = some s1' ∧ AInv Z o s1 s1' (b.step op) := by
  obtain ⟨ρ, S, T, hs, h1, h2, h3, h4⟩ := h
  cases op with
  | fresh =>
    simp only [OStore.step] at he
    split at he
    case h_2 => cases he
    rename_i p h' hr
    cases he
    have hh : h' = (I.fresh.out s.heap).2 := by rw [out_run.1 hr]
    simp only [Book.keep, OStore.execR, OStore.step]
    by_cases hb : b.next = o
    · obtain ⟨σ, g1, g2, g3⟩ := sep_both hs (P := Z.rootR) (fun σ _ ho => Z.fresh_r σ ho)
      obtain ⟨q, e1, e2⟩ := res_ok hr g3
      rw [e1]
      refine ⟨_, rfl, σ, S, T ++ [(p, q, b.next, [])], hh ▸ g2, by simp [h1], by simp [h2], by simp [Book.step, h3], fun t ht => ?_⟩
      rw [List.mem_append, List.mem_singleton] at ht
      rcases ht with ht | rfl
      · exact (h4 t ht).mono g1 fun _ k => k
      · exact ⟨fun _ => e2, fun k => absurd hb k⟩
    · obtain ⟨T', g1, g2, g3⟩ := sep_left hs (P := Z.rootR) (fun T _ => Z.fresh_r (Diag T) (one_diag T))
      have g4 := sep_right g2 (P := Z.rootR) (fun T => Z.fresh_r (Diag T) (one_diag T))
      obtain ⟨q, h2', e1⟩ := Z.fresh_ok s'.heap
      have : (I.fresh.out s'.heap).2 = h2' := by rw [out_run.1 e1]
      rw [e1]
      obtain ⟨q', e2, e3⟩ := res_ok hr g3
      rw [hr] at e2; cases e2
      refine ⟨_, rfl, ρ, T', T ++ [(p, q, b.next, [])], hh ▸ this ▸ g4, by simp [h1], by simp [h2], by simp [Book.step, h3], fun t ht => ?_⟩
      rw [List.mem_append, List.mem_singleton] at ht
      rcases ht with ht | rfl
      · exact (h4 t ht).mono (fun _ _ k => k) g1
      · exact ⟨fun k => absurd k hb, fun _ => e3⟩
  | drop i =>
    cases he
    refine ⟨_, rfl, ρ, S, T.eraseIdx i, hs, by simp [h1, map_eraseIdx], by simp [h2, map_eraseIdx], by simp [Book.step, h3, map_eraseIdx], fun t ht =>
      h4 t (List.mem_of_mem_eraseIdx ht)⟩
  | cow i x =>
    cases hT : T[i]? with
    | none =>
      have e1 : s.roots[i]? = none := by simp [h1, hT]
      have e2 : s'.roots[i]? = none := by simp [h2, hT]
      have e3 : b.vs[i]? = none := by simp [h3, hT]
      simp only [OStore.step, e1, Except.ok.injEq] at he
      subst he
      have : b.keep o (.cow i x, true) = [(.cow i x, true)] := by simp [Book.keep, Book.of, e3]
      rw [this]
      simp only [OStore.execR, OStore.step, e2, Book.step, e3]
      exact ⟨_, rfl, ρ, S, T, hs, h1, h2, h3, h4⟩
    | some t =>
      have e1 : s.roots[i]? = some t.1 := by simp [h1, hT]
      have e2 : s'.roots[i]? = some t.2.1 := by simp [h2, hT]
      have e3 : b.vs[i]? = some t.2.2 := by simp [h3, hT]
      have ht : t ∈ T := List.mem_of_getElem? hT
      simp only [OStore.step, e1] at he
      split at he
      case h_2 => cases he
      rename_i p h' hr
      cases he
      have hh : h' = ((I.cow x t.1).out s.heap).2 := by rw [out_run.1 hr]
      have hbk : b.step (.cow i x) = ⟨b.next, b.vs ++ [(t.2.2.1, x :: t.2.2.2)]⟩ := by simp only [Book.step, e3]
      rw [hbk]
      by_cases hb : t.2.2.1 = o
      · have : b.keep o (.cow i x, true) = [(.cow i x, true)] := by simp only [Book.keep]; rw [if_pos ((of_true e3).2 hb)]
        rw [this]
        simp only [OStore.execR, OStore.step, e2]
        obtain ⟨σ, g1, g2, g3⟩ := sep_both hs (P := Z.rootR) (fun σ h1 ho => Z.cow_r σ ho x t.1 t.2.1 (Z.root_mono h1 ((h4 t ht).1 hb)))
        obtain ⟨q, f1, f2⟩ := res_ok hr g3
        rw [f1]
        refine ⟨_, rfl, σ, S, T ++ [(p, q, t.2.2.1, x :: t.2.2.2)], hh ▸ g2, by simp [h1], by simp [h2], by simp [h3], fun u hu => ?_⟩
        rw [List.mem_append, List.mem_singleton] at hu
        rcases hu with hu | rfl
        · exact (h4 u hu).mono g1 fun _ k => k
        · exact ⟨fun _ => f2, fun k => absurd hb k⟩
      · have : b.keep o (.cow i x, true) = [(.fresh, true)] := by
          simp only [Book.keep]; rw [if_neg fun k => hb ((of_true e3).1 k)]; rfl
        rw [this]
        simp only [OStore.execR, OStore.step]
        obtain ⟨T', g1, g2, g3⟩ := sep_left hs (P := Z.rootR) (fun T hST => Z.cow_r (Diag T) (one_diag T) x t.1 t.1
          (Z.root_mono (fun a b k => ⟨hST a k.1, k.2⟩) ((h4 t ht).2 hb)))
        have g4 := sep_right g2 (P := Z.rootR) (fun T => Z.fresh_r (Diag T) (one_diag T))
        obtain ⟨q, h2', f1⟩ := Z.fresh_ok s'.heap
        have : (I.fresh.out s'.heap).2 = h2' := by rw [out_run.1 f1]
        rw [f1]
        obtain ⟨q', f2, f3⟩ := res_ok hr g3
        rw [hr] at f2; cases f2
        refine ⟨_, rfl, ρ, T', T ++ [(p, q, t.2.2.1, x :: t.2.2.2)], hh ▸ this ▸ g4, by simp [h1], by simp [h2], by simp [h3], fun u hu => ?_⟩
        rw [List.mem_append, List.mem_singleton] at hu
        rcases hu with hu | rfl
        · exact (h4 u hu).mono (fun _ _ k => k) g1
        · exact ⟨fun k => absurd k hb, fun _ => f3⟩
  | inp i x =>
    cases hT : T[i]? with
    | none =>
      have e1 : s.roots[i]? = none := by simp [h1, hT]
      have e2 : s'.roots[i]? = none := by simp [h2, hT]
      have e3 : b.vs[i]? = none := by simp [h3, hT]
      simp only [OStore.step, e1, Except.ok.injEq] at he
      subst he
      have : b.keep o (.inp i x, true) = [(.inp i x, true)] := by simp [Book.keep, Book.of, e3]
      rw [this]
      simp only [OStore.execR, OStore.step, e2, Book.step, e3]
      exact ⟨_, rfl, ρ, S, T, hs, h1, h2, h3, h4⟩
    | some t =>
      have e1 : s.roots[i]? = some t.1 := by simp [h1, hT]
      have e2 : s'.roots[i]? = some t.2.1 := by simp [h2, hT]
      have e3 : b.vs[i]? = some t.2.2 := by simp [h3, hT]
      have ht : t ∈ T := List.mem_of_getElem? hT
      have hil : i < T.length := (List.getElem?_eq_some_iff.1 hT).1
      simp only [OStore.step, e1] at he
      split at he
      case h_2 => cases he
      rename_i p h' hr
      cases he
      have hh : h' = ((I.inp x t.1).out s.heap).2 := by rw [out_run.1 hr]
      have hbk : b.step (.inp i x) = ⟨b.next, b.vs.set i (t.2.2.1, x :: t.2.2.2)⟩ := by simp only [Book.step, e3]
      rw [hbk]
      by_cases hb : t.2.2.1 = o
      · have : b.keep o (.inp i x, true) = [(.inp i x, true)] := by simp only [Book.keep]; rw [if_pos ((of_true e3).2 hb)]
        rw [this]
        simp only [OStore.execR, OStore.step, e2]
        obtain ⟨σ, g1, g2, g3⟩ := sep_both hs (P := Z.rootR) (fun σ h1 ho => Z.inp_r σ ho x t.1 t.2.1 (Z.root_mono h1 ((h4 t ht).1 hb)))
        obtain ⟨q, f1, f2⟩ := res_ok hr g3
        rw [f1]
        refine ⟨_, rfl, σ, S, T.set i (p, q, t.2.2.1, x :: t.2.2.2), hh ▸ g2, by simp [h1, List.map_set], by simp [h2, List.map_set], by simp [h3, List.map_set],
          fun u hu => ?_⟩
        rcases mem_set hu with rfl | hu
        · exact ⟨fun _ => f2, fun k => absurd hb k⟩
        · exact (h4 u hu).mono g1 fun _ k => k
      · have : b.keep o (.inp i x, true) = [] := by simp only [Book.keep]; rw [if_neg fun k => hb ((of_true e3).1 k)]
        rw [this]
        obtain ⟨T', g1, g2, g3⟩ := sep_left hs (P := Z.rootR) (fun T hST => Z.inp_r (Diag T) (one_diag T) x t.1 t.1
          (Z.root_mono (fun a b k => ⟨hST a k.1, k.2⟩) ((h4 t ht).2 hb)))
        obtain ⟨q', f2, f3⟩ := res_ok hr g3
        rw [hr] at f2; cases f2
        refine ⟨_, rfl, ρ, T', T.set i (p, t.2.1, t.2.2.1, x :: t.2.2.2), hh ▸ g2, by simp [h1, List.map_set], ?_, by simp [h3, List.map_set], fun u hu => ?_⟩
        · rw [h2, List.map_set]
          refine (List.ext_getElem? fun j => ?_).symm
          rw [List.getElem?_set]
          split
          · rename_i e; subst e; rw [← h2, e2]; simp [show i < s'.roots.length by rw [h2]; simpa using hil]
          · rfl
        · rcases mem_set hu with rfl | hu
          · exact ⟨fun k => absurd k hb, fun _ => f3⟩
          · exact (h4 u hu).mono (fun _ _ k => k) g1

/-- One call that panicked. -/
theorem arecover {Z : I.Blind} {o : Nat} {s s' s1 : OStore D R} {b : Book O} (h : AInv Z o s s' b) (op : SOp O) (he : s.recover I op = some s1) :
    ∃ s1', s'.execR I (b.keep o (op, false)) = some s1' ∧ AInv Z o s1 s1' b := by
  obtain ⟨ρ, S, T, hs, h1, h2, h3, h4⟩ := h
  have key : ∀ (i : Nat) (p : R → Prog D R), (∀ ρ, One ρ → ∀ r q, Z.rootR ρ r q → (p r).Sim ρ (Z.cellR ρ) (Z.rootR ρ) (p q)) →
      ∀ t, T[i]? = some t → ∀ h', (p t.1).crash s.heap = some (.panic, h') →
        (t.2.2.1 = o → ∃ h'', (p t.2.1).crash s'.heap = some (.panic, h'') ∧ AInv Z o ⟨h', s.roots⟩ ⟨h'', s'.roots⟩ b) ∧
        (t.2.2.1 ≠ o → AInv Z o ⟨h', s.roots⟩ s' b) := by
    intro i p hp t hT h' hr
    have ht : t ∈ T := List.mem_of_getElem? hT
    have hh : h' = ((p t.1).out s.heap).2 := by rw [out_crash.1 hr]
    constructor
    · intro hb
      obtain ⟨σ, g1, g2, g3⟩ := sep_both hs (P := Z.rootR) (fun σ h1 ho => hp σ ho t.1 t.2.1 (Z.root_mono h1 ((h4 t ht).1 hb)))
      exact ⟨_, res_crash hr g3, σ, S, T, hh ▸ g2, h1, h2, h3, fun u hu => (h4 u hu).mono g1 fun _ k => k⟩
    · intro hb
      obtain ⟨T', g1, g2, _⟩ := sep_left hs (P := Z.rootR) (fun T hST => hp (Diag T) (one_diag T) t.1 t.1
        (Z.root_mono (fun a b k => ⟨hST a k.1, k.2⟩) ((h4 t ht).2 hb)))
      exact ⟨ρ, T', T, hh ▸ g2, h1, h2, h3, fun u hu => (h4 u hu).mono (fun _ _ k => k) g1⟩
  cases op with
  | fresh => cases he
  | drop i => cases he
  | cow i x =>
    cases hT : T[i]? with
    | none =>
      have e1 : s.roots[i]? = none := by simp [h1, hT]
      simp [OStore.recover, e1] at he
    | some t =>
      have e1 : s.roots[i]? = some t.1 := by simp [h1, hT]
      have e2 : s'.roots[i]? = some t.2.1 := by simp [h2, hT]
      have e3 : b.vs[i]? = some t.2.2 := by simp [h3, hT]
      simp only [OStore.recover, e1, Option.bind_some] at he
      split at he
      case h_2 => cases he
      rename_i h' hr
      cases he
      obtain ⟨k1, k2⟩ := key i (I.cow x) (fun ρ ho r q => Z.cow_r ρ ho x r q) t hT h' hr
      by_cases hb : t.2.2.1 = o
      · have : b.keep o (.cow i x, false) = [(.cow i x, false)] := by simp only [Book.keep]; rw [if_pos ((of_true e3).2 hb)]
        obtain ⟨h'', c1, c2⟩ := k1 hb
        rw [this]
        refine ⟨_, ?_, c2⟩
        simp only [OStore.execR, OStore.recover, e2, Option.bind_some, c1]
      · have : b.keep o (.cow i x, false) = [] := by simp only [Book.keep]; rw [if_neg fun k => hb ((of_true e3).1 k)]; rfl
        rw [this]
        exact ⟨_, rfl, k2 hb⟩
  | inp i x =>
    cases hT : T[i]? with
    | none =>
      have e1 : s.roots[i]? = none := by simp [h1, hT]
      simp [OStore.recover, e1] at he
    | some t =>
      have e1 : s.roots[i]? = some t.1 := by simp [h1, hT]
      have e2 : s'.roots[i]? = some t.2.1 := by simp [h2, hT]
      have e3 : b.vs[i]? = some t.2.2 := by simp [h3, hT]
      simp only [OStore.recover, e1, Option.bind_some] at he
      split at he
      case h_2 => cases he
      rename_i h' hr
      cases he
      obtain ⟨k1, k2⟩ := key i (I.inp x) (fun ρ ho r q => Z.inp_r ρ ho x r q) t hT h' hr
      by_cases hb : t.2.2.1 = o
      · have : b.keep o (.inp i x, false) = [(.inp i x, false)] := by simp only [Book.keep]; rw [if_pos ((of_true e3).2 hb)]
        obtain ⟨h'', c1, c2⟩ := k1 hb
        rw [this]
        refine ⟨_, ?_, c2⟩
        simp only [OStore.execR, OStore.recover, e2, Option.bind_some, c1]
      · have : b.keep o (.inp i x, false) = [] := by simp only [Book.keep]; rw [if_neg fun k => hb ((of_true e3).1 k)]
        rw [this]
        exact ⟨_, rfl, k2 hb⟩

theorem aexec {Z : I.Blind} {o : Nat} {s s' s1 : OStore D R} {b : Book O} (h : AInv Z o s s' b) (ops : List (SOp O × Bool)) (he : s.execR I ops = some s1) :
    ∃ s1', s'.execR I (b.only o ops) = some s1' ∧ AInv Z o s1 s1' (b.exec (returned ops)) := by
  induction ops generalizing s s' b with
  | nil => cases he; exact ⟨s', rfl, h⟩
  | cons x ops ih =>
    obtain ⟨op, t⟩ := x
    cases t with
    | true =>
      simp only [OStore.execR] at he
      cases h1 : s.step I op with
      | error e => rw [h1] at he; cases he
      | ok s2 =>
        rw [h1] at he
        obtain ⟨s2', e1, e2⟩ := astep h op h1
        obtain ⟨s1', e3, e4⟩ := ih e2 he
        exact ⟨s1', (execR_append e1).trans e3, e4⟩
    | false =>
      simp only [OStore.execR] at he
      cases h1 : s.recover I op with
      | none => rw [h1] at he; cases he
      | some s2 =>
        rw [h1] at he
        obtain ⟨s2', e1, e2⟩ := arecover h op h1
        obtain ⟨s1', e3, e4⟩ := ih e2 he
        exact ⟨s1', (execR_append e1).trans e3, e4⟩

/-- What a call comes to: its result or the panic. -/
def Prog.comes (p : Prog D α) (h : Heap D) : Except Err α :=
  match p.run h with
  | .ok (x, _) => .ok x
  | .error e => .error e

theorem comes_out (p : Prog D α) (h : Heap D) : p.comes h = (p.out h).1 := by
  match e : p.out h with
  | (.ok x, h') => simp only [Prog.comes, out_run.2 e]
  | (.error x, h') =>
    have : p.run h = .error x := (crash_run p h x).2 ⟨h', out_crash.2 e⟩
    simp only [Prog.comes, this]

/-- The history without the calls on other origins can be made as well, and whatever is asked of a tree of origin `o` then (by a program that
does not look at the names of addresses) comes to the same. -/
theorem alone_history (Z : I.Blind) (o : Nat) (ops : List (SOp O × Bool)) {s : OStore D R} (he : OStore.init.execR I ops = some s) :
    ∃ s', OStore.init.execR I ((Book.init : Book O).only o ops) = some s' ∧ s'.roots.length = s.roots.length ∧
      ∀ (i : Nat) v r, (Book.init.exec (returned ops)).vs[i]? = some v → v.1 = o → s.roots[i]? = some r → ∃ r', s'.roots[i]? = some r' ∧
        ∀ {β : Type} (P : (Addr → Addr → Prop) → β → β → Prop) (q : R → Prog D β),
          (∀ ρ, One ρ → ∀ r r', Z.rootR ρ r r' → (q r).Sim ρ (Z.cellR ρ) (P ρ) (q r')) → ∃ ρ, ResR (P ρ) ((q r).comes s.heap) ((q r').comes s'.heap) := by
  obtain ⟨s', e1, ρ, S, T, hs, h1, h2, h3, h4⟩ := aexec (ainv_init Z o) ops he
  refine ⟨s', e1, by simp [h1, h2], fun i v r hv hvo hr => ?_⟩
  cases hT : T[i]? with
  | none => simp [h1, hT] at hr
  | some t =>
    have hr' : t.1 = r := by simpa [h1, hT] using hr
    have hv' : t.2.2 = v := by simpa [h3, hT] using hv
    subst hr' hv'
    refine ⟨t.2.1, by simp [h2, hT], fun P q hq => ?_⟩
    obtain ⟨σ, _, _, g3⟩ := sep_both hs (P := P) (fun σ k ho => hq σ ho t.1 t.2.1 (Z.root_mono k ((h4 t (List.mem_of_getElem? hT)).1 hvo)))
    exact ⟨σ, by rw [comes_out, comes_out]; exact g3⟩

/-- A reader, whose answer has no pointers. -/
theorem res_eq {x y : Except Err α} (h : ResR Eq x y) : x = y := by
  cases x <;> cases y <;> simp_all [ResR]

end Verif.Heap
