import Verif.Heap.Team

/-!
# Goroutines on trees of different origins

After a history of which nothing is asked, any number of goroutines work at the same time, each on the trees of an origin of its own and on trees it starts itself.  What
a goroutine does may depend on what it has seen; it may use in-place calls on trees that share nodes, and recover from panics.
-/

namespace Verif.Heap
open Prog
variable {D O R T Q A α β : Type} {I : OImpl D O R}

/-- A call the caller recovers from a panic of: `none` then. -/
def Prog.catch : Prog D α → Prog D (Option α)
  | .ret x => .ret (some x)
  | .stop .panic => .ret none
  | .stop e => .stop e
  | .read a k => .read a fun c => (k c).catch
  | .write a c k => .write a c k.catch
  | .alloc c k => .alloc c fun a => (k a).catch

/-- Both there and related, or neither there. -/
def OptRel (P : α → β → Prop) : Option α → Option β → Prop
  | none, none => True
  | some x, some y => P x y
  | _, _ => False

theorem sim_catch {ρ : Addr → Addr → Prop} {C : Cell D → Cell D → Prop} {P : α → β → Prop} {p : Prog D α} {q : Prog D β} (h : p.Sim ρ C P q) :
    p.catch.Sim ρ C (OptRel P) q.catch := by
  induction p generalizing q with
  | ret x =>
    cases q with
    | ret y => exact h
    | _ => exact h.elim
  | stop e =>
    cases q with
    | stop e' =>
      have h' : e = e' := h
      subst h'
      cases e <;> first | trivial | rfl
    | _ => exact h.elim
  | read a k ih =>
    cases q with
    | read b l => exact ⟨h.1, fun c d hcd => ih c (h.2 c d hcd)⟩
    | _ => exact h.elim
  | write a c k ih =>
    cases q with
    | write b d l => exact ⟨h.1, h.2.1, ih h.2.2⟩
    | _ => exact h.elim
  | alloc c k ih =>
    cases q with
    | alloc d l => exact ⟨h.1, fun a b hab => ih a (h.2 a b hab)⟩
    | _ => exact h.elim

/-- What a goroutine does with the trees it has, numbered in the order it got them: start a new tree, make a copy-on-write call on tree `i`, which gives one more tree, change
tree `i` in place, ask something about tree `i`.  How it goes on depends on whether the call returned, and on the answer. -/
inductive Job (O Q A : Type) where
  | done
  | fresh (k : Job O Q A)
  | cow (i : Nat) (o : O) (k : Bool → Job O Q A)
  | inp (i : Nat) (o : O) (k : Bool → Job O Q A)
  | ask (i : Nat) (q : Q) (k : Option A → Job O Q A)

/-- What a goroutine sees: that a call returned or panicked, an answer or that asking panicked. -/
inductive Event (A : Type) where
  | call (returned : Bool)
  | answer (x : Option A)
deriving DecidableEq

/-- The memory accesses of a goroutine, and all it sees.  A call on a tree that is not there ends it. -/
def Job.prog (I : OImpl D O R) (ask : Q → R → Prog D A) : Job O Q A → List R → Prog D (List (Event A))
  | .done, _ => pure []
  | .fresh k, rs => do
    let r ← I.fresh
    k.prog I ask (rs ++ [r])
  | .cow i o k, rs => match rs[i]? with
    | none => pure []
    | some r => do
      let x ← (I.cow o r).catch
      let l ← (k x.isSome).prog I ask (rs ++ x.toList)
      pure (.call x.isSome :: l)
  | .inp i o k, rs => match rs[i]? with
    | none => pure []
    | some r => do
      let x ← (I.inp o r).catch
      let l ← (k x.isSome).prog I ask (match x with | none => rs | some r' => rs.set i r')
      pure (.call x.isSome :: l)
  | .ask i q k, rs => match rs[i]? with
    | none => pure []
    | some r => do
      let x ← (ask q r).catch
      let l ← (k x).prog I ask rs
      pure (.answer x :: l)

/-- Two lists of roots related one by one. -/
def RootsR (Z : I.Blind) (ρ : Addr → Addr → Prop) (rs rs' : List R) : Prop :=
  ∃ L : List (R × R), rs = L.map (·.1) ∧ rs' = L.map (·.2) ∧ ∀ p ∈ L, Z.rootR ρ p.1 p.2

/-- A goroutine does not look at the names of addresses. -/
theorem sim_job {Z : I.Blind} {ask : Q → R → Prog D A} (hask : ∀ ρ, One ρ → ∀ q r r', Z.rootR ρ r r' → (ask q r).Sim ρ (Z.cellR ρ) Eq (ask q r')) {ρ : Addr → Addr → Prop} (ho : One ρ)
    (j : Job O Q A) {rs rs' : List R} (hr : RootsR Z ρ rs rs') : (j.prog I ask rs).Sim ρ (Z.cellR ρ) Eq (j.prog I ask rs') := by
  induction j generalizing rs rs' with
  | done => exact sim_pure rfl
  | fresh k ih =>
    refine sim_bind (Z.fresh_r ρ ho) fun r r' h => ih ?_
    obtain ⟨L, rfl, rfl, h3⟩ := hr
    refine ⟨L ++ [(r, r')], by simp, by simp, fun p hp => ?_⟩
    rw [List.mem_append, List.mem_singleton] at hp
    rcases hp with hp | rfl
    · exact h3 p hp
    · exact h
  | cow i o k ih =>
    obtain ⟨L, rfl, rfl, h3⟩ := hr
    simp only [Job.prog, List.getElem?_map]
    cases hL : L[i]? with
    | none => exact sim_pure rfl
    | some p =>
      refine sim_bind (sim_catch (Z.cow_r ρ ho o p.1 p.2 (h3 p (List.mem_of_getElem? hL)))) fun x y h => ?_
      cases x <;> cases y <;> try exact h.elim
      · exact sim_bind (ih _ ⟨L, by simp, by simp, h3⟩) fun l m e => sim_pure (e ▸ rfl)
      · rename_i r r'
        refine sim_bind (ih _ ⟨L ++ [(r, r')], by simp, by simp, fun p hp => ?_⟩) fun l m e => sim_pure (e ▸ rfl)
        rw [List.mem_append, List.mem_singleton] at hp
        rcases hp with hp | rfl
        · exact h3 p hp
        · exact h
  | inp i o k ih =>
    obtain ⟨L, rfl, rfl, h3⟩ := hr
    simp only [Job.prog, List.getElem?_map]
    cases hL : L[i]? with
    | none => exact sim_pure rfl
    | some p =>
      refine sim_bind (sim_catch (Z.inp_r ρ ho o p.1 p.2 (h3 p (List.mem_of_getElem? hL)))) fun x y h => ?_
      cases x <;> cases y <;> try exact h.elim
      · exact sim_bind (ih _ ⟨L, rfl, rfl, h3⟩) fun l m e => sim_pure (e ▸ rfl)
      · rename_i r r'
        refine sim_bind (ih _ ⟨L.set i (r, r'), by simp [List.map_set], by simp [List.map_set], fun p hp => ?_⟩) fun l m e => sim_pure (e ▸ rfl)
        rcases mem_set hp with rfl | hp
        · exact h
        · exact h3 p hp
  | ask i q k ih =>
    have hr' := hr
    obtain ⟨L, rfl, rfl, h3⟩ := hr
    simp only [Job.prog, List.getElem?_map]
    cases hL : L[i]? with
    | none => exact sim_pure rfl
    | some p =>
      refine sim_bind (sim_catch (hask ρ ho q p.1 p.2 (h3 p (List.mem_of_getElem? hL)))) fun x y h => ?_
      have e : x = y := by cases x <;> cases y <;> first | rfl | exact h.elim | exact congrArg some h
      subst e
      exact sim_bind (ih x hr') fun l m e => sim_pure (e ▸ rfl)

/-! ## The memory in parts, one for every origin -/

/-- `S o` is what belongs to origin `o`: no cell belongs to two, and no pointer leads from one part to another. -/
structure Zones (Z : I.Blind) (h : Heap D) (S : Nat → Addr → Prop) : Prop where
  ok : h.Ok
  lt : ∀ o a, S o a → a < h.next
  disj : ∀ o o' a, S o a → S o' a → o = o'
  zone : ∀ o, Cells (Diag (S o)) (Z.cellR (Diag (S o))) h h

theorem zones_out {Z : I.Blind} {h : Heap D} {S : Nat → Addr → Prop} (hz : Zones Z h S) (o : Nat) {P : (Addr → Addr → Prop) → α → α → Prop} {p : Prog D α}
    (hp : ∀ T : Addr → Prop, (∀ a, S o a → T a) → p.Sim (Diag T) (Z.cellR (Diag T)) (P (Diag T)) p) :
    ∃ S', (∀ o a, S o a → S' o a) ∧ Zones Z (p.out h).2 S' ∧ ResR (P (Diag (S' o))) (p.out h).1 (p.out h).1 := by
  have hl := out_next p h
  generalize hN : (p.out h).2.next = N at hl
  have hsub : ∀ a, S o a → (S o a ∨ (h.next ≤ a ∧ a < N)) := fun a k => .inl k
  have hd : ∀ a b, Diag (S o) a b → Diag (fun a => S o a ∨ (h.next ≤ a ∧ a < N)) a b := fun a b k => ⟨hsub a k.1, k.2⟩
  obtain ⟨r1, r2, _, r4, _⟩ := sim_out (one_diag _) (hp _ hsub) (h := h) (h' := h) (by
    rintro a b ⟨ha | ha, rfl⟩
    · exact ((hz.zone o).mono fun c d => Z.cell_mono hd) a a ⟨ha, rfl⟩
    · exact .inl ⟨hz.ok _ ha.1, hz.ok _ ha.1⟩) (fun i hi => ⟨.inr ⟨by omega, by omega⟩, rfl⟩)
  have fr : ∀ a, a < h.next → ¬ S o a → (p.out h).2.mem a = h.mem a := fun a h1 h2 => r4 a (by
    rintro b ⟨k | k, _⟩
    · exact h2 k
    · omega)
  refine ⟨fun o' a => if o' = o then S o a ∨ (h.next ≤ a ∧ a < N) else S o' a, fun o' a k => ?_, ⟨fun a ha => ?_, fun o' a k => ?_, fun o1 o2 a k1 k2 => ?_, fun o' => ?_⟩, ?_⟩
  · dsimp only
    split
    · rename_i e; subst e; exact .inl k
    · exact k
  · rw [r4 a]
    · exact hz.ok a (by omega)
    · rintro b ⟨k | k, _⟩
      · have := hz.lt o a k; omega
      · omega
  · rw [hN]
    split at k
    · rcases k with k | k
      · have := hz.lt o a k; omega
      · exact k.2
    · have := hz.lt o' a k; omega
  · split at k1 <;> split at k2
    · rename_i e1 e2; exact e1.trans e2.symm
    · rename_i e1 e2
      rcases k1 with k | k
      · exact (hz.disj o o2 a k k2) ▸ e1
      · have := hz.lt o2 a k2; omega
    · rename_i e1 e2
      rcases k2 with k | k
      · exact ((hz.disj o o1 a k k1) ▸ e2).symm
      · have := hz.lt o1 a k1; omega
    · exact hz.disj o1 o2 a k1 k2
  · by_cases e : o' = o
    · simp only [if_pos e]; exact r2
    · simp only [if_neg e]
      rintro a b ⟨k, rfl⟩
      rw [fr a (hz.lt o' a k) fun k' => e (hz.disj o' o a k k')]
      exact hz.zone o' a a ⟨k, rfl⟩
  · simp only [if_true]; exact r1

/-- The state of a history: every tree lies in the part of its origin. -/
def Zoned (Z : I.Blind) (s : OStore D R) (b : Book O) : Prop :=
  ∃ (S : Nat → Addr → Prop) (L : List (R × Nat × List O)), Zones Z s.heap S ∧ s.roots = L.map (·.1) ∧ b.vs = L.map (·.2) ∧ ∀ t ∈ L, Z.rootR (Diag (S t.2.1)) t.1 t.1

theorem zoned_init (Z : I.Blind) : Zoned Z OStore.init (Book.init : Book O) :=
  ⟨fun _ _ => False, [], ⟨Heap.ok_empty, fun _ _ h => h.elim, fun _ _ _ h => h.elim, fun _ _ _ h => h.1.elim⟩, rfl, rfl, by simp⟩

theorem diag_mono {S S' : Nat → Addr → Prop} (h : ∀ o a, S o a → S' o a) (o : Nat) (a b : Addr) (k : Diag (S o) a b) : Diag (S' o) a b := ⟨h o a k.1, k.2⟩

theorem zoned_step {Z : I.Blind} {s s1 : OStore D R} {b : Book O} (h : Zoned Z s b) (op : SOp O) (he : s.step I op = .ok s1) : Zoned Z s1 (b.step op) := by
  obtain ⟨S, L, hz, h1, h2, h3⟩ := h
  cases op with
  | fresh =>
    simp only [OStore.step] at he
    split at he
    case h_2 => cases he
    rename_i p h' hr
    cases he
    obtain ⟨S', g1, g2, g3⟩ := zones_out hz b.next (P := Z.rootR) (fun T _ => Z.fresh_r (Diag T) (one_diag T))
    rw [out_run.1 hr] at g2 g3
    refine ⟨S', L ++ [(p, b.next, [])], g2, by simp [h1], by simp [Book.step, h2], fun t ht => ?_⟩
    rw [List.mem_append, List.mem_singleton] at ht
    rcases ht with ht | rfl
    · exact Z.root_mono (diag_mono g1 _) (h3 t ht)
    · exact g3
  | drop i =>
    cases he
    exact ⟨S, L.eraseIdx i, hz, by simp [h1, map_eraseIdx], by simp [Book.step, h2, map_eraseIdx], fun t ht => h3 t (List.mem_of_mem_eraseIdx ht)⟩
  | cow i x =>
    cases hL : L[i]? with
    | none =>
      have e1 : s.roots[i]? = none := by simp [h1, hL]
      have e2 : b.vs[i]? = none := by simp [h2, hL]
      simp only [OStore.step, e1, Except.ok.injEq] at he
      subst he
      simp only [Book.step, e2]
      exact ⟨S, L, hz, h1, h2, h3⟩
    | some t =>
      have e1 : s.roots[i]? = some t.1 := by simp [h1, hL]
      have e2 : b.vs[i]? = some t.2 := by simp [h2, hL]
      have ht : t ∈ L := List.mem_of_getElem? hL
      simp only [OStore.step, e1] at he
      split at he
      case h_2 => cases he
      rename_i p h' hr
      cases he
      have hbk : b.step (.cow i x) = ⟨b.next, b.vs ++ [(t.2.1, x :: t.2.2)]⟩ := by simp only [Book.step, e2]
      rw [hbk]
      obtain ⟨S', g1, g2, g3⟩ := zones_out hz t.2.1 (P := Z.rootR) (fun T hT => Z.cow_r (Diag T) (one_diag T) x t.1 t.1 (Z.root_mono (fun a b k => ⟨hT a k.1, k.2⟩) (h3 t ht)))
      rw [out_run.1 hr] at g2 g3
      refine ⟨S', L ++ [(p, t.2.1, x :: t.2.2)], g2, by simp [h1], by simp [h2], fun u hu => ?_⟩
      rw [List.mem_append, List.mem_singleton] at hu
      rcases hu with hu | rfl
      · exact Z.root_mono (diag_mono g1 _) (h3 u hu)
      · exact g3
  | inp i x =>
    cases hL : L[i]? with
    | none =>
      have e1 : s.roots[i]? = none := by simp [h1, hL]
      have e2 : b.vs[i]? = none := by simp [h2, hL]
      simp only [OStore.step, e1, Except.ok.injEq] at he
      subst he
      simp only [Book.step, e2]
      exact ⟨S, L, hz, h1, h2, h3⟩
    | some t =>
      have e1 : s.roots[i]? = some t.1 := by simp [h1, hL]
      have e2 : b.vs[i]? = some t.2 := by simp [h2, hL]
      have ht : t ∈ L := List.mem_of_getElem? hL
      simp only [OStore.step, e1] at he
      split at he
      case h_2 => cases he
      rename_i p h' hr
      cases he
      have hbk : b.step (.inp i x) = ⟨b.next, b.vs.set i (t.2.1, x :: t.2.2)⟩ := by simp only [Book.step, e2]
      rw [hbk]
      obtain ⟨S', g1, g2, g3⟩ := zones_out hz t.2.1 (P := Z.rootR) (fun T hT => Z.inp_r (Diag T) (one_diag T) x t.1 t.1 (Z.root_mono (fun a b k => ⟨hT a k.1, k.2⟩) (h3 t ht)))
      rw [out_run.1 hr] at g2 g3
      refine ⟨S', L.set i (p, t.2.1, x :: t.2.2), g2, by simp [h1, List.map_set], by simp [h2, List.map_set], fun u hu => ?_⟩
      rcases mem_set hu with rfl | hu
      · exact g3
      · exact Z.root_mono (diag_mono g1 _) (h3 u hu)

theorem zoned_recover {Z : I.Blind} {s s1 : OStore D R} {b : Book O} (h : Zoned Z s b) (op : SOp O) (he : s.recover I op = some s1) : Zoned Z s1 b := by
  obtain ⟨S, L, hz, h1, h2, h3⟩ := h
  have key : ∀ (i : Nat) (p : R → Prog D R), (∀ ρ, One ρ → ∀ r q, Z.rootR ρ r q → (p r).Sim ρ (Z.cellR ρ) (Z.rootR ρ) (p q)) →
      (s.roots[i]?.bind fun r => match (p r).crash s.heap with | some (.panic, h') => some ⟨h', s.roots⟩ | _ => none) = some s1 → Zoned Z s1 b := by
    intro i p hp he
    cases hL : L[i]? with
    | none =>
      have e1 : s.roots[i]? = none := by simp [h1, hL]
      simp [e1] at he
    | some t =>
      have e1 : s.roots[i]? = some t.1 := by simp [h1, hL]
      have ht : t ∈ L := List.mem_of_getElem? hL
      simp only [e1, Option.bind_some] at he
      split at he
      case h_2 => cases he
      rename_i h' hr
      cases he
      obtain ⟨S', g1, g2, _⟩ := zones_out hz t.2.1 (P := Z.rootR) (fun T hT => hp (Diag T) (one_diag T) t.1 t.1 (Z.root_mono (fun a b k => ⟨hT a k.1, k.2⟩) (h3 t ht)))
      rw [out_crash.1 hr] at g2
      exact ⟨S', L, g2, h1, h2, fun u hu => Z.root_mono (diag_mono g1 _) (h3 u hu)⟩
  cases op with
  | fresh => cases he
  | drop i => cases he
  | cow i x => exact key i (I.cow x) (fun ρ ho r q => Z.cow_r ρ ho x r q) he
  | inp i x => exact key i (I.inp x) (fun ρ ho r q => Z.inp_r ρ ho x r q) he

theorem zoned_exec {Z : I.Blind} {s s1 : OStore D R} {b : Book O} (h : Zoned Z s b) (ops : List (SOp O × Bool)) (he : s.execR I ops = some s1) : Zoned Z s1 (b.exec (returned ops)) := by
  induction ops generalizing s b with
  | nil => cases he; exact h
  | cons x ops ih =>
    obtain ⟨op, t⟩ := x
    cases t with
    | true =>
      simp only [OStore.execR] at he
      cases h1 : s.step I op with
      | error e => rw [h1] at he; cases he
      | ok s2 => rw [h1] at he; exact ih (zoned_step h op h1) he
    | false =>
      simp only [OStore.execR] at he
      cases h1 : s.recover I op with
      | none => rw [h1] at he; cases he
      | some s2 => rw [h1] at he; exact ih (zoned_recover h op h1) he

/-- The trees of origin `o`, in the order they came about. -/
def treesOf (s : OStore D R) (b : Book O) (o : Nat) : List R := ((s.roots.zip b.vs).filter fun p => p.2.1 == o).map (·.1)

/-- The goroutines, each with the trees of its origin. -/
def teamOf (I : OImpl D O R) (ask : Q → R → Prog D A) (ops : List (SOp O × Bool)) (s : OStore D R) (org : T → Nat) (job : T → Job O Q A) : Team D T fun _ => List (Event A) :=
  ⟨s.heap, fun t => (job t).prog I ask (treesOf s (Book.init.exec (returned ops)) (org t))⟩

/-- After any schedule: a goroutine that has ended has seen what it sees alone, or runs into the same failure as alone; with as many turns as it takes alone it has
ended; and no two goroutines are about to read or write the same cell. -/
theorem team_alone [DecidableEq T] (Z : I.Blind) {ask : Q → R → Prog D A} (hask : ∀ ρ, One ρ → ∀ q r r', Z.rootR ρ r r' → (ask q r).Sim ρ (Z.cellR ρ) Eq (ask q r'))
    (ops : List (SOp O × Bool)) {s : OStore D R} (he : OStore.init.execR I ops = some s) (org : T → Nat) (horg : ∀ t u, org t = org u → t = u) (job : T → Job O Q A) (sched : List T) (t : T) :
    let p0 := teamOf I ask ops s org job
    let e := p0.exec sched
    (∀ x, e.prog t = .ret x → (p0.prog t).comes s.heap = .ok x) ∧ (∀ x, e.prog t = .stop x → (p0.prog t).comes s.heap = .error x) ∧
    ((p0.prog t).left s.heap ≤ sched.count t → (∃ x, e.prog t = .ret x) ∨ ∃ x, e.prog t = .stop x) ∧
    ∀ u, u ≠ t → ∀ a, (e.prog t).reaches = some a → (e.prog u).reaches ≠ some a := by
  intro p0 e
  obtain ⟨S, L, hz, h1, h2, h3⟩ := zoned_exec (zoned_init Z) ops he
  have hi : (Team.mk s.heap p0.prog).Inv Z s.heap (fun _ => False) (fun _ _ => Eq) p0.prog (fun _ => 0) (fun t => Diag (S (org t))) p0.prog fun _ => s.heap := by
    refine ⟨Nat.le_refl _, fun t => ⟨fun σ hσ ho => sim_job hask ho _ ?_, one_diag _, ?_, hz.zone _, off_none, Nat.le_refl _, fun _ _ _ k => k, rfl, by simp⟩, ?_, fun _ k => k.elim, fun _ k => k.elim⟩
    · have e : ∀ L : List (R × Nat × List O), (((L.map (·.1)).zip (L.map (·.2))).filter fun p => p.2.1 == org t) = L.filter fun p => p.2.1 == org t := fun L => by
        congr 1
        induction L with
        | nil => rfl
        | cons x L ih => simp [ih]
      have e' : treesOf s (Book.init.exec (returned ops)) (org t) = (L.filter fun p => p.2.1 == org t).map (·.1) := by
        simp only [treesOf, h1, h2]; rw [e]
      show RootsR Z σ (treesOf s (Book.init.exec (returned ops)) (org t)) (treesOf s (Book.init.exec (returned ops)) (org t))
      rw [e']
      refine ⟨(L.filter fun p => p.2.1 == org t).map fun p => (p.1, p.1), by simp, by simp, fun p hp => ?_⟩
      obtain ⟨q, hq, rfl⟩ := List.mem_map.1 hp
      obtain ⟨hq1, hq2⟩ := List.mem_filter.1 hq
      have hq2 : q.2.1 = org t := by simpa using hq2
      exact Z.root_mono hσ (hq2 ▸ h3 q hq1)
    · rintro a b ⟨k, rfl⟩
      exact ⟨hz.lt _ a k, hz.lt _ a k⟩
    · rintro t u htu a b c ⟨k1, _⟩ ⟨k2, _⟩
      exact htu (horg t u (hz.disj _ _ a k1 k2))
  obtain ⟨r1, r2, r3, _, r4, _⟩ := team_result hi sched t
  refine ⟨fun x hx => ?_, r2, r3, r4⟩
  obtain ⟨_, y, g, hy, hxy, _⟩ := r1 x hx
  rw [hxy]
  simp only [Prog.comes]
  rw [hy]

end Verif.Heap
