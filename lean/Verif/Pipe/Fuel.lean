import Verif.Pipe.Script

/-!
# Scripts of any length

The programs of some trees carry a bound on the depth of recursion that depends on the size of the tree.  A script runs through
finitely many steps, so some bound is enough for it.
-/

namespace Verif.Pipe
open Verif.Heap Verif.Heap.Prog

variable {D O R K A B E α : Type} {L L' : List O → List E → Prop} {ok iok : List O → O → Prop}

theorem rounds_fun {body : E → Book O → List (TOp O K) → Prop} (hb : ∀ e b l l', body e b l → body e b l' → l = l') :
    ∀ (es : List E) (b : Book O) (l l' : List (TOp O K)), Rounds body es b l → Rounds body es b l' → l = l' := by
  intro es
  induction es with
  | nil => rintro b l l' rfl rfl; rfl
  | cons e es ih =>
    rintro b l l' ⟨l1, l2, rfl, h1, h2⟩ ⟨l3, l4, rfl, h3, h4⟩
    cases hb e b l1 l3 h1 h3
    rw [ih _ l2 l4 h2 h4]

theorem unrolls_fun (hL : ∀ l es es', L l es → L l es' → es = es') (sc : Script O K E) :
    ∀ (b : Book O) (l l' : List (TOp O K)), sc.Unrolls L b l → sc.Unrolls L b l' → l = l' := by
  induction sc with
  | done => rintro b l l' rfl rfl; rfl
  | call op t ih =>
    rintro b l l' ⟨l1, rfl, h1⟩ ⟨l2, rfl, h2⟩
    rw [ih _ l1 l2 h1 h2]
  | read i q t ih =>
    rintro b l l' ⟨l1, rfl, h1⟩ ⟨l2, rfl, h2⟩
    rw [ih _ l1 l2 h1 h2]
  | each i body t ihb iht =>
    intro b l l' h h'
    simp only [Script.Unrolls] at h h'
    cases hv : b.vs[i]? with
    | none =>
      simp only [hv] at h h'
      exact iht b l l' h h'
    | some v =>
      simp only [hv] at h h'
      obtain ⟨es, l1, l2, a1, a2, a3, rfl⟩ := h
      obtain ⟨es', l3, l4, b1, b2, b3, rfl⟩ := h'
      cases hL _ _ _ a1 b1
      cases rounds_fun ihb es b l1 l3 a2 b2
      rw [iht _ l2 l4 a3 b3]

theorem rounds_mono {body body' : E → Book O → List (TOp O K) → Prop} (hb : ∀ e b l, body e b l → body' e b l) :
    ∀ (es : List E) (b : Book O) (l : List (TOp O K)), Rounds body es b l → Rounds body' es b l := by
  intro es
  induction es with
  | nil => intro b l h; exact h
  | cons e es ih =>
    rintro b l ⟨l1, l2, rfl, h1, h2⟩
    exact ⟨l1, l2, rfl, hb e b l1 h1, ih _ l2 h2⟩

/-- A script that unrolls by listings in one sense does so in any weaker sense. -/
theorem unrolls_mono (hL : ∀ l es, L' l es → L l es) (sc : Script O K E) : ∀ (b : Book O) (l : List (TOp O K)), sc.Unrolls L' b l → sc.Unrolls L b l := by
  induction sc with
  | done => intro b l h; exact h
  | call op t ih => rintro b l ⟨l1, rfl, h1⟩; exact ⟨l1, rfl, ih _ l1 h1⟩
  | read i q t ih => rintro b l ⟨l1, rfl, h1⟩; exact ⟨l1, rfl, ih _ l1 h1⟩
  | each i body t ihb iht =>
    intro b l h
    simp only [Script.Unrolls] at h ⊢
    cases hv : b.vs[i]? with
    | none =>
      simp only [hv] at h
      exact iht b l h
    | some v =>
      simp only [hv] at h
      obtain ⟨es, l1, l2, a1, a2, a3, rfl⟩ := h
      exact ⟨es, l1, l2, hL _ _ a1, rounds_mono ihb es b l1 a2, iht _ l2 a3, rfl⟩

/-- A script that is legal whatever the listings in one sense is so in any stronger sense. -/
theorem legal_mono {N : Nat → Prop} (hL : ∀ l es, L' l es → L l es) (sc : Script O K E) :
    ∀ (busy : List Nat) (b : Book O) (m : Nat), sc.Legal ok iok L N busy b m → sc.Legal ok iok L' N busy b m := by
  induction sc with
  | done => exact fun _ _ _ _ => trivial
  | call op t ih => rintro busy b m ⟨h1, h2, h3, h4⟩; exact ⟨h1, h2, h3, ih _ _ _ h4⟩
  | read i q t ih => exact fun busy b m h => ih _ _ _ h
  | each i body t ihb iht =>
    intro busy b m h
    simp only [Script.Legal] at h ⊢
    cases hv : b.vs[i]? with
    | none =>
      simp only [hv] at h
      exact iht _ _ _ h
    | some v =>
      simp only [hv] at h
      intro es he
      obtain ⟨h1, h2⟩ := h es (hL _ _ he)
      refine ⟨?_, fun l hl => iht _ _ _ (h2 l (rounds_mono (fun e b l => unrolls_mono hL (body e) b l) es b l hl))⟩
      clear h h2 he hv
      induction es generalizing b m with
      | nil => trivial
      | cons e es ih => exact ⟨ihb e _ _ _ h1.1, fun l hl => ih _ _ (h1.2 l (unrolls_mono hL _ _ _ hl))⟩

/-- A legal script makes a bounded number of steps. -/
theorem legal_bounded {N : Nat → Prop} (hL : ∀ l es es', L l es → L l es' → es = es') (sc : Script O K E) :
    ∀ (busy : List Nat) (b : Book O) (m : Nat), sc.Legal ok iok L N busy b m → ∃ n0, ∀ n, n0 ≤ n → sc.Legal ok iok L (· ≤ n) busy b m := by
  induction sc with
  | done => exact fun _ _ _ _ => ⟨0, fun _ _ => trivial⟩
  | call op t ih =>
    rintro busy b m ⟨h1, h2, h3, h4⟩
    obtain ⟨n0, h⟩ := ih _ _ _ h4
    exact ⟨max n0 (m + 1), fun n hn => ⟨by omega, h2, h3, h n (by omega)⟩⟩
  | read i q t ih => exact fun busy b m h => ih _ _ _ h
  | each i body t ihb iht =>
    intro busy b m h
    simp only [Script.Legal] at h ⊢
    cases hv : b.vs[i]? with
    | none =>
      simp only [hv] at h
      exact iht _ _ _ h
    | some v =>
      simp only [hv] at h ⊢
      by_cases hes : ∃ es, L v.2 es
      · obtain ⟨es, he⟩ := hes
        obtain ⟨h1, h2⟩ := h es he
        have hr : ∀ (es : List E) (b : Book O) (m : Nat), RoundsLegal (fun e => (body e).Unrolls L) (fun e => (body e).Legal ok iok L N (v.1 :: busy)) es b m →
            ∃ n0, ∀ n, n0 ≤ n → RoundsLegal (fun e => (body e).Unrolls L) (fun e => (body e).Legal ok iok L (· ≤ n) (v.1 :: busy)) es b m := by
          intro es
          induction es with
          | nil => exact fun _ _ _ => ⟨0, fun _ _ => trivial⟩
          | cons e es ih =>
            rintro b m ⟨h1, h2⟩
            obtain ⟨n1, hn1⟩ := ihb e _ _ _ h1
            by_cases hu : ∃ l, (body e).Unrolls L b l
            · obtain ⟨l, hl⟩ := hu
              obtain ⟨n2, hn2⟩ := ih _ _ (h2 l hl)
              refine ⟨max n1 n2, fun n hn => ⟨hn1 n (by omega), fun l' hl' => ?_⟩⟩
              rw [unrolls_fun hL _ _ l' l hl' hl]
              exact hn2 n (by omega)
            · exact ⟨n1, fun n hn => ⟨hn1 n hn, fun l' hl' => (hu ⟨l', hl'⟩).elim⟩⟩
        obtain ⟨n1, hn1⟩ := hr es b m h1
        by_cases hu : ∃ l, Rounds (fun e => (body e).Unrolls L) es b l
        · obtain ⟨l, hl⟩ := hu
          obtain ⟨n2, hn2⟩ := iht _ _ _ (h2 l hl)
          refine ⟨max n1 n2, fun n hn es' he' => ?_⟩
          cases hL _ _ _ he he'
          refine ⟨hn1 n (by omega), fun l' hl' => ?_⟩
          rw [rounds_fun (fun e => unrolls_fun hL (body e)) es b l' l hl' hl]
          exact hn2 n (by omega)
        · refine ⟨n1, fun n hn es' he' => ?_⟩
          cases hL _ _ _ he he'
          exact ⟨hn1 n hn, fun l' hl' => (hu ⟨l', hl'⟩).elim⟩
      · exact ⟨0, fun n _ es he => (hes ⟨es, he⟩).elim⟩

/-- `obj_script` for code with a bound on recursion: with any large enough bound all is well. -/
theorem obj_script_fuel {I : Nat → OImpl D O R} (hc : ∀ f, (I f).cowOk = ok) (hi : ∀ f, (I f).inpOk = iok) (ops : List (SOp O))
    (hl : (Book.init : Book O).LegalAll2 ok iok ops) (Rd : Nat → K → R → Prog D A) (P : K → List O → A → Prop) (Ob : Nat → Heap D → R → List O → Prop)
    {Lp : Nat → Loop D R B E} (hL' : ∀ l es, L' l es → L l es) (hfun : ∀ l es es', L' l es → L' l es' → es = es')
    (H : ∀ n, ∃ f0, ∀ f, f0 ≤ f → (I f).Lawful n ∧
      (∀ k h r l F, l.length ≤ n → (I f).Obj h r l F → wp (fun _ => False) (Rd f k r) (fun x h' => h' = h ∧ P k l x) h) ∧
      (∀ h r l F, l.length ≤ n → (I f).Obj h r l F → Ob f h r l) ∧ (Lp f).Lawful (I f) L' n) (sc : Script O K E)
    (hs : sc.Legal ok iok L (fun _ => True) [] (Book.init.exec ops) ops.length) :
    ∃ f0, ∀ f, f0 ≤ f → ∃ s, OStore.init.exec (I f) ops = .ok s ∧ Ends id (sc.main (I f) (Rd f) (Lp f) ([], s.roots) .ret) s.heap (Comes P (Ob f) L (Book.init.exec ops) sc) := by
  obtain ⟨n0, hn0⟩ := legal_bounded hfun sc _ _ _ (legal_mono hL' sc _ _ _ hs)
  obtain ⟨f0, hf0⟩ := H (max n0 ops.length)
  refine ⟨f0, fun f hf => ?_⟩
  obtain ⟨g1, g2, g3, g4⟩ := hf0 f hf
  have lm : ∀ n, n ≤ max n0 ops.length → (I f).Lawful n := fun n hn =>
    ⟨g1.fresh_ok, g1.lt, g1.frame, fun l o r h F hl => g1.cow_ok l o r h F (by omega), fun l o r h F hl => g1.inp_ok l o r h F (by omega)⟩
  obtain ⟨s, e1, e2⟩ := obj_script (N := (· ≤ max n0 ops.length)) lm ops (by omega) (by rw [hc, hi]; exact hl) (Rd f) P (Ob f)
    (fun n hn k h r l F hl => g2 k h r l F (by omega)) (fun n hn h r l F hl => g3 h r l F (by omega)) (Lp := Lp f) (L := L')
    (fun n hn => ⟨fun hl => g4.ok (by omega)⟩) sc (by rw [hc, hi]; exact hn0 _ (by omega))
  refine ⟨s, e1, ⟨e2.noPanic, e2.noDeadlock, e2.terminates, fun n t x hr hx => ?_, e2.noLeak⟩⟩
  obtain ⟨l, a1, a2⟩ := e2.result n t x hr hx
  exact ⟨l, unrolls_mono hL' sc _ l a1, a2⟩

end Verif.Pipe
