import Verif.Heap.Job
import Verif.Heap.Session

/-!
# Goroutines working on from the same trees, in one memory

As `Verif/Heap/Session`, but the goroutines take new addresses from one supply, in the order their turns fall (`Team`), not each from its own.
-/

namespace Verif.Heap
open Prog
variable {D O R K A T α β : Type} {I : OImpl D O R}

/-- A run in a memory that is like another comes to the like. -/
theorem abreast_comes {Z : I.Blind} {P : (Addr → Addr → Prop) → β → β → Prop} {p : Prog D β} : ∀ {q : Prog D β} {h h' : Heap D} {ρ : Addr → Addr → Prop}, Abreast Z ρ P p q → One ρ →
    (∀ a b, ρ a b → a < h.next ∧ b < h'.next) → Cells ρ (Z.cellR ρ) h h' → ∃ σ, ResR (P σ) (p.out h).1 (q.out h').1 := by
  have base : ∀ {p q : Prog D β} {h h' : Heap D} {ρ : Addr → Addr → Prop}, Abreast Z ρ P p q → One ρ → p.step h = none → ∃ σ, ResR (P σ) (p.out h).1 (q.out h').1 := by
    intro p q h h' ρ hk ho hs
    have h0 := hk ρ (fun _ _ k => k) ho
    refine ⟨ρ, ?_⟩
    cases p with
    | ret x =>
      cases q with
      | ret y => exact h0
      | _ => exact h0.elim
    | stop x =>
      cases q with
      | stop y => exact h0
      | _ => exact h0.elim
    | read a k =>
      simp only [Prog.step] at hs
      split at hs <;> cases hs
    | write a c k => cases hs
    | alloc c k => cases hs
  induction p with
  | ret x => exact fun hk ho _ _ => base hk ho rfl
  | stop x => exact fun hk ho _ _ => base hk ho rfl
  | read a k ih =>
    intro q h h' ρ hk ho hl hc
    cases hs : (Prog.read a k).step h with
    | none => exact base hk ho hs
    | some ph =>
      obtain ⟨p1, h1⟩ := ph
      obtain ⟨σ, q1, h1', k1, k2, k3, k4, k5, _⟩ := kept_step hk ho hl hc hs
      rw [← (step_out hs).1, ← (step_out k1).1]
      simp only [Prog.step] at hs
      cases e : h.mem a with
      | none => rw [e] at hs; cases hs; exact base k2 k3 rfl
      | some c => rw [e] at hs; cases hs; exact ih c k2 k3 k4 k5
  | write a c k ih =>
    intro q h h' ρ hk ho hl hc
    obtain ⟨σ, q1, h1', k1, k2, k3, k4, k5, _⟩ := kept_step hk ho hl hc (show (Prog.write a c k).step h = some (k, h.put a c) from rfl)
    rw [← (step_out (show (Prog.write a c k).step h = some (k, h.put a c) from rfl)).1, ← (step_out k1).1]
    exact ih k2 k3 k4 k5
  | alloc c k ih =>
    intro q h h' ρ hk ho hl hc
    obtain ⟨σ, q1, h1', k1, k2, k3, k4, k5, _⟩ := kept_step hk ho hl hc (show (Prog.alloc c k).step h = some (k h.next, h.push c) from rfl)
    rw [← (step_out (show (Prog.alloc c k).step h = some (k h.next, h.push c) from rfl)).1, ← (step_out k1).1]
    exact ih _ k2 k3 k4 k5

theorem RootsR.mono {Z : I.Blind} {ρ σ : Addr → Addr → Prop} (h : ∀ a b, ρ a b → σ a b) {rs rs' : List R} (hr : RootsR Z ρ rs rs') : RootsR Z σ rs rs' := by
  obtain ⟨L, h1, h2, h3⟩ := hr
  exact ⟨L, h1, h2, fun p hp => Z.root_mono h (h3 p hp)⟩

theorem sim_stepP {Z : I.Blind} {ρ : Addr → Addr → Prop} (ho : One ρ) {rs rs' : List R} (hr : RootsR Z ρ rs rs') (op : SOp O) :
    (stepP I rs op).Sim ρ (Z.cellR ρ) (RootsR Z ρ) (stepP I rs' op) := by
  obtain ⟨L, rfl, rfl, h3⟩ := hr
  cases op with
  | fresh =>
    refine sim_bind (Z.fresh_r ρ ho) fun r r' h => sim_pure ⟨L ++ [(r, r')], by simp, by simp, fun p hp => ?_⟩
    rw [List.mem_append, List.mem_singleton] at hp
    rcases hp with hp | rfl
    · exact h3 p hp
    · exact h
  | cow i o =>
    simp only [stepP, List.getElem?_map]
    cases hL : L[i]? with
    | none => exact sim_pure ⟨L, rfl, rfl, h3⟩
    | some p =>
      refine sim_bind (Z.cow_r ρ ho o p.1 p.2 (h3 p (List.mem_of_getElem? hL))) fun r r' h => sim_pure ⟨L ++ [(r, r')], by simp, by simp, fun p hp => ?_⟩
      rw [List.mem_append, List.mem_singleton] at hp
      rcases hp with hp | rfl
      · exact h3 p hp
      · exact h
  | inp i o =>
    simp only [stepP, List.getElem?_map]
    cases hL : L[i]? with
    | none => exact sim_pure ⟨L, rfl, rfl, h3⟩
    | some p =>
      refine sim_bind (Z.inp_r ρ ho o p.1 p.2 (h3 p (List.mem_of_getElem? hL))) fun r r' h => sim_pure ⟨L.set i (r, r'), by simp [List.map_set], by simp [List.map_set], fun p hp => ?_⟩
      rcases mem_set hp with rfl | hp
      · exact h
      · exact h3 p hp
  | drop i => exact sim_pure ⟨L.eraseIdx i, by rw [map_eraseIdx], by rw [map_eraseIdx], fun p hp => h3 p (List.mem_of_mem_eraseIdx hp)⟩

/-- Answers related one by one. -/
def AnsR (AR : A → A → Prop) : List (Option A) → List (Option A) → Prop
  | [], [] => True
  | x :: xs, y :: ys => OptRel AR x y ∧ AnsR AR xs ys
  | _, _ => False

theorem AnsR.answers {AR : A → A → Prop} {P : K → List O → A → Prop} (hP : ∀ k l x y, AR x y → P k l y → P k l x) (sc : List (TOp O K)) {b : Book O} {xs ys : List (Option A)}
    (h : AnsR AR xs ys) (hy : b.Answers P sc ys) : b.Answers P sc xs := by
  induction sc generalizing b xs ys with
  | nil =>
    cases hy
    cases xs with
    | nil => rfl
    | cons _ _ => exact h.elim
  | cons op sc ih =>
    cases op with
    | call op => exact ih (b := b.step op) h hy
    | read i k =>
      obtain ⟨y, ys', rfl, h1, h2⟩ := hy
      cases xs with
      | nil => exact h.elim
      | cons x xs =>
        refine ⟨x, xs, rfl, ih h.2 h1, ?_⟩
        cases hv : b.vs[i]? with
        | none =>
          simp only [hv] at h2 ⊢
          subst h2
          cases x with
          | none => rfl
          | some x => exact h.1.elim
        | some v =>
          simp only [hv] at h2 ⊢
          obtain ⟨a, rfl, ha⟩ := h2
          cases x with
          | none => exact h.1.elim
          | some x => exact ⟨x, rfl, hP k v.2 x a h.1 ha⟩

theorem sim_session {Z : I.Blind} {AR : (Addr → Addr → Prop) → A → A → Prop} {Rd : K → R → Prog D A}
    (hRd : ∀ ρ, One ρ → ∀ k r r', Z.rootR ρ r r' → (Rd k r).Sim ρ (Z.cellR ρ) (AR ρ) (Rd k r')) {ρ : Addr → Addr → Prop} (ho : One ρ) (sc : List (TOp O K)) {rs rs' : List R}
    (hr : RootsR Z ρ rs rs') : (sessionP I Rd sc rs).Sim ρ (Z.cellR ρ) (fun x y => AnsR (AR ρ) x.1 y.1 ∧ RootsR Z ρ x.2 y.2) (sessionP I Rd sc rs') := by
  induction sc generalizing rs rs' with
  | nil => exact sim_pure ⟨trivial, hr⟩
  | cons op sc ih =>
    cases op with
    | call op => exact sim_bind (sim_stepP ho hr op) fun x y h => ih h
    | read i k =>
      have hr' := hr
      obtain ⟨L, rfl, rfl, h3⟩ := hr
      simp only [sessionP, List.getElem?_map]
      cases hL : L[i]? with
      | none => exact sim_bind (ih hr') fun x y h => sim_pure ⟨⟨trivial, h.1⟩, h.2⟩
      | some p => exact sim_bind (hRd ρ ho k p.1 p.2 (h3 p (List.mem_of_getElem? hL))) fun a a' ha => sim_bind (ih hr') fun x y h => sim_pure ⟨⟨ha, h.1⟩, h.2⟩

/-- What goroutine `t` is promised at any point of a schedule of goroutines running scripts from the roots of `s` (recorded in `b`): it has not failed; it is not about to write a cell that
existed at the start, or one that another goroutine is at; it has ended if it had enough turns; if it has ended, its answers are those its own record calls for, and so are the answers of
any read on the trees it holds, in the memory as it is then; the same goes for the trees held at the start. -/
structure Promise1 {T : Type} [DecidableEq T] (s : OStore D R) (b : Book O) (script : T → List (TOp O K)) (prog : T → Prog D (List (Option A) × List R))
    (Rd : K → R → Prog D A) (P : K → List O → A → Prop) (e : Team D T fun _ => List (Option A) × List R) (sched : List T) (t : T) : Prop where
  safe : ∀ x, e.prog t ≠ .stop x
  norace : ∀ a, (e.prog t).writes = some a → s.heap.next ≤ a ∧ ∀ u, u ≠ t → (e.prog u).reaches ≠ some a
  ends : (prog t).left s.heap ≤ sched.count t → ∃ x, e.prog t = .ret x
  result : ∀ xs rs, e.prog t = .ret (xs, rs) → b.Answers P (script t) xs ∧ rs.length = (b.after (script t)).vs.length ∧
    ∀ (i : Nat) r v k, rs[i]? = some r → (b.after (script t)).vs[i]? = some v → ∃ x, (Rd k r).comes e.heap = .ok x ∧ P k v.2 x
  old : ∀ (i : Nat) r v k, s.roots[i]? = some r → b.vs[i]? = some v → ∃ x, (Rd k r).comes e.heap = .ok x ∧ P k v.2 x

theorem comes_wp {W : Nat → Prop} {p : Prog D α} {Q : α → Heap D → Prop} {h : Heap D} (hp : wp W p Q h) : ∃ x h', p.comes h = .ok x ∧ Q x h' := by
  obtain ⟨x, h', e, hq⟩ := wp_run hp
  exact ⟨x, h', by simp only [Prog.comes, e], hq.1⟩

/-- After any legal history, any number of goroutines running legal scripts from the roots held, in any schedule. -/
theorem obj_team {n : Nat} (hI : I.Lawful n) (Z : I.Blind) (ops : List (SOp O)) (hl : (Book.init : Book O).LegalAll2 I.cowOk I.inpOk ops)
    (Rd : K → R → Prog D A) (P : K → List O → A → Prop) (AR : (Addr → Addr → Prop) → A → A → Prop)
    (hRd : ∀ ρ, One ρ → ∀ k r r', Z.rootR ρ r r' → (Rd k r).Sim ρ (Z.cellR ρ) (AR ρ) (Rd k r')) (hP : ∀ ρ k l x y, AR ρ x y → P k l y → P k l x)
    (hR : ∀ k h r l F, l.length ≤ n → I.Obj h r l F → wp (fun _ => False) (Rd k r) (fun x h' => h' = h ∧ P k l x) h)
    {T : Type} [DecidableEq T] (script : T → List (TOp O K)) (hn0 : ops.length ≤ n) (hn : ∀ t, ops.length + (script t).length ≤ n)
    (hs : ∀ t, (Book.init.exec ops).LegalT I.cowOk I.inpOk (Book.init.exec ops).next (script t)) (sched : List T) :
    ∃ s, OStore.init.exec I ops = .ok s ∧ ∀ t, Promise1 s (Book.init.exec ops) script (fun t => sessionP I Rd (script t) s.roots) Rd P
      ((Team.mk s.heap fun t => sessionP I Rd (script t) s.roots).exec sched) sched t := by
  obtain ⟨s, e, i1⟩ := oexec_inv hI (oinv_init I) ops (by omega) hl
  have i2 := i1.rebase
  obtain ⟨S, L, hz, z1, z2, z3⟩ := zoned_exec (zoned_init Z) _ (execR_returned _ ops e)
  refine ⟨s, e, fun t => ?_⟩
  have hw : ∀ t, wp (fun a => s.heap.next ≤ a) (sessionP I Rd (script t) s.roots) _ s.heap := fun t => session_wp hI Rd P hR (script t) (by have := hn t; omega) i2 (hs t)
  have hU : ∀ o a b, Diag (S o) a b → Diag (fun a => ∃ o, S o a) a b := fun o a b k => ⟨⟨o, k.1⟩, k.2⟩
  have hi : (Team.mk s.heap fun t => sessionP I Rd (script t) s.roots).Inv Z s.heap (· < s.heap.next) (fun _ ρ x y => AnsR (AR ρ) x.1 y.1 ∧ RootsR Z ρ x.2 y.2)
      (fun t => sessionP I Rd (script t) s.roots) (fun _ => 0) (fun _ => Diag fun a => ∃ o, S o a) (fun t => sessionP I Rd (script t) s.roots) fun _ => s.heap := by
    refine ⟨Nat.le_refl _, fun t => ⟨fun σ hσ ho => sim_session hRd ho _ ?_, one_diag _, ?_, ?_, off_wp (fun a h1 h2 => Nat.not_lt.2 h1 h2) (hw t), Nat.le_refl _, ?_, rfl, by simp⟩,
      ?_, fun _ k => k, fun _ _ => rfl⟩
    · rw [z1]
      refine ⟨L.map fun p => (p.1, p.1), by simp, by simp, fun p hp => ?_⟩
      obtain ⟨q, hq, rfl⟩ := List.mem_map.1 hp
      exact Z.root_mono (fun a b k => hσ a b (hU _ a b k)) (z3 q hq)
    · rintro a b ⟨⟨o, k⟩, rfl⟩
      exact ⟨hz.lt o a k, hz.lt o a k⟩
    · rintro a b ⟨⟨o, k⟩, rfl⟩
      exact ((hz.zone o).mono fun c d => Z.cell_mono (hU o)) a a ⟨k, rfl⟩
    · rintro a b ⟨_, rfl⟩ h
      exact h
    · rintro t u _ a b c ⟨⟨o, k⟩, _⟩ _
      exact hz.lt o a k
  obtain ⟨r1, r2, r3, r4, r5, r6, r7⟩ := team_result hi sched t
  have safe : ∀ x, ((Team.mk s.heap fun t => sessionP I Rd (script t) s.roots).exec sched).prog t ≠ .stop x := fun x hx => by
    obtain ⟨y, h', hy, _⟩ := comes_wp (hw t)
    have := r2 x hx
    rw [hy] at this
    cases this
  refine ⟨safe, fun a ha => ⟨Nat.not_lt.1 (r4 a ha), fun u hu hr => ?_⟩, fun h => ?_, fun xs rs hx => ?_, fun i r v k hr hv => ?_⟩
  · refine r4 a ha (r5 u hu a ?_ hr)
    revert ha
    cases ((Team.mk s.heap fun t => sessionP I Rd (script t) s.roots).exec sched).prog t <;> intro ha <;> cases ha
    rfl
  · rcases r3 h with h | ⟨x, hx⟩
    · exact h
    · exact (safe x hx).elim
  · obtain ⟨σ, y, g, e1, ⟨e2, e3⟩, e4, e5, e6⟩ := r1 _ hx
    obtain ⟨y', g', e7, ⟨g1, T', _, hk, h1, h2, h3, h4⟩, _⟩ := wp_run (hw t)
    rw [e1] at e7
    cases e7
    simp only at h1
    obtain ⟨M, m1, m2, m3⟩ := e3
    simp only at m1
    refine ⟨e2.answers (fun k l x y => hP σ k l x y) _ g1, ?_, fun i r v k hr hv => ?_⟩
    · rw [m1, h2, List.length_map, List.length_map, ← List.length_map (as := T') (f := fun t => t.1.1), ← h1, m2, List.length_map]
    · rw [h2, List.getElem?_map] at hv
      rw [m1, List.getElem?_map] at hr
      cases hM : M[i]? with
      | none => simp [hM] at hr
      | some p =>
        simp only [hM, Option.map_some, Option.some.injEq] at hr
        subst hr
        cases hT : T'[i]? with
        | none => simp [hT] at hv
        | some u =>
          simp only [hT, Option.map_some, Option.some.injEq] at hv
          subst hv
          have hpu : p.2 = u.1.1 := by
            have a1 : y.2[i]? = some p.2 := by rw [m2, List.getElem?_map, hM]; rfl
            have a2 : y.2[i]? = some u.1.1 := by rw [h1, List.getElem?_map, hT]; rfl
            rw [a1] at a2; exact Option.some.inj a2
          obtain ⟨a1, _, a5⟩ := h3 u (List.mem_of_getElem? hT)
          obtain ⟨x, _, hx1, _, hx2⟩ := comes_wp (hR k g u.1.1 u.2.2 u.1.2 (by have := hn t; omega) a1)
          obtain ⟨τ, hτ⟩ := abreast_comes (Z := Z) (P := AR) (p := Rd k p.1) (q := Rd k p.2)
            (fun τ hτ ho => hRd τ ho k p.1 p.2 (Z.root_mono hτ (m3 p (List.mem_of_getElem? hM)))) e4 e5 e6
          rw [← comes_out, ← comes_out, hpu, hx1] at hτ
          cases hc : (Rd k p.1).comes ((Team.mk s.heap fun t => sessionP I Rd (script t) s.roots).exec sched).heap with
          | error x => rw [hc] at hτ; exact hτ.elim
          | ok z => rw [hc] at hτ; exact ⟨z, rfl, hP τ k _ z x hτ hx2⟩
  · obtain ⟨T', _, hk, h1, h2, h3, h4⟩ := i1
    rw [h1, List.getElem?_map] at hr
    rw [h2, List.getElem?_map] at hv
    cases hT : T'[i]? with
    | none => simp [hT] at hr
    | some u =>
      simp only [hT, Option.map_some, Option.some.injEq] at hr hv
      subst hr hv
      obtain ⟨a1, _, a5⟩ := h3 u (List.mem_of_getElem? hT)
      obtain ⟨x, _, hx1, _, hx2⟩ := comes_wp (hR k _ u.1.1 u.2.2 u.1.2 (by omega) (hI.frame a1 r6 fun a ha => r7 a (hI.lt a1 ha)))
      exact ⟨x, hx1, hx2⟩

end Verif.Heap
