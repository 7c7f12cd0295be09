import Verif.Pipe.Break

/-!
# Scripts of any length, with loops that may be left

As `Pipe/Fuel.lean`.
-/

namespace Verif.Pipe
open Verif.Heap Verif.Heap.Prog

variable {D O R K A B E α : Type} {L L' : List O → List E → Prop} {ok iok : List O → O → Prop}

theorem brounds_fun {body : E → Book O → Trail O K → Prop} {brk : E → Bool} (hb : ∀ e b l l', body e b l → body e b l' → l = l') :
    ∀ (es : List E) (b : Book O) (l l' : Trail O K) (r r' : Option Nat), BRounds body brk es b l r → BRounds body brk es b l' r' → l = l' ∧ r = r' := by
  intro es
  induction es with
  | nil => rintro b l l' r r' ⟨rfl, rfl⟩ ⟨rfl, rfl⟩; exact ⟨rfl, rfl⟩
  | cons e es ih =>
    rintro b l l' r r' ⟨l1, h1, h2⟩ ⟨l3, h3, h4⟩
    cases hb e b l1 l3 h1 h3
    cases hs : brk e with
    | true =>
      simp only [hs, if_true] at h2 h4
      exact ⟨h2.1.trans h4.1.symm, h2.2.trans h4.2.symm⟩
    | false =>
      simp only [hs] at h2 h4
      obtain ⟨l2, h2, rfl⟩ := h2
      obtain ⟨l4, h4, rfl⟩ := h4
      obtain ⟨rfl, rfl⟩ := ih _ l2 l4 r r' h2 h4
      exact ⟨rfl, rfl⟩

theorem bunrolls_fun (hL : ∀ l es es', L l es → L l es' → es = es') (sc : BScript O K E) :
    ∀ (b : Book O) (l l' : Trail O K), sc.Unrolls L b l → sc.Unrolls L b l' → l = l' := by
  induction sc with
  | done => rintro b l l' rfl rfl; rfl
  | call op t ih =>
    rintro b l l' ⟨l1, rfl, h1⟩ ⟨l2, rfl, h2⟩
    rw [ih _ l1 l2 h1 h2]
  | read i q t ih =>
    rintro b l l' ⟨l1, rfl, h1⟩ ⟨l2, rfl, h2⟩
    rw [ih _ l1 l2 h1 h2]
  | each i body brk t ihb iht =>
    intro b l l' h h'
    simp only [BScript.Unrolls] at h h'
    cases hv : b.vs[i]? with
    | none =>
      simp only [hv] at h h'
      exact iht b l l' h h'
    | some v =>
      simp only [hv] at h h'
      obtain ⟨es, l1, r, l2, a1, a2, a3, rfl⟩ := h
      obtain ⟨es', l3, r', l4, b1, b2, b3, rfl⟩ := h'
      cases hL _ _ _ a1 b1
      obtain ⟨rfl, rfl⟩ := brounds_fun ihb es b l1 l3 r r' a2 b2
      rw [iht _ l2 l4 a3 b3]

theorem brounds_mono {body body' : E → Book O → Trail O K → Prop} {brk : E → Bool} (hb : ∀ e b l, body e b l → body' e b l) :
    ∀ (es : List E) (b : Book O) (l : Trail O K) (r : Option Nat), BRounds body brk es b l r → BRounds body' brk es b l r := by
  intro es
  induction es with
  | nil => intro b l r h; exact h
  | cons e es ih =>
    rintro b l r ⟨l1, h1, h2⟩
    refine ⟨l1, hb e b l1 h1, ?_⟩
    cases hs : brk e with
    | true => simpa only [hs, if_true] using h2
    | false =>
      simp only [hs] at h2
      obtain ⟨l2, h2, rfl⟩ := h2
      exact ⟨l2, ih _ l2 r h2, rfl⟩

/-- A script that unrolls by listings in one sense does so in any weaker sense. -/
theorem bunrolls_mono (hL : ∀ l es, L' l es → L l es) (sc : BScript O K E) : ∀ (b : Book O) (l : Trail O K), sc.Unrolls L' b l → sc.Unrolls L b l := by
  induction sc with
  | done => intro b l h; exact h
  | call op t ih => rintro b l ⟨l1, rfl, h1⟩; exact ⟨l1, rfl, ih _ l1 h1⟩
  | read i q t ih => rintro b l ⟨l1, rfl, h1⟩; exact ⟨l1, rfl, ih _ l1 h1⟩
  | each i body brk t ihb iht =>
    intro b l h
    simp only [BScript.Unrolls] at h ⊢
    cases hv : b.vs[i]? with
    | none =>
      simp only [hv] at h
      exact iht b l h
    | some v =>
      simp only [hv] at h
      obtain ⟨es, l1, r, l2, a1, a2, a3, rfl⟩ := h
      exact ⟨es, l1, r, l2, hL _ _ a1, brounds_mono ihb es b l1 r a2, iht _ l2 a3, rfl⟩

/-- A script that is legal whatever the listings in one sense is so in any stronger sense. -/
theorem blegal_mono {N : Nat → Prop} (hL : ∀ l es, L' l es → L l es) (sc : BScript O K E) :
    ∀ (busy : List Nat) (b : Book O) (m : Nat), sc.Legal ok iok L N busy b m → sc.Legal ok iok L' N busy b m := by
  induction sc with
  | done => exact fun _ _ _ _ => trivial
  | call op t ih => rintro busy b m ⟨h1, h2, h3, h4⟩; exact ⟨h1, h2, h3, ih _ _ _ h4⟩
  | read i q t ih => exact fun busy b m h => ih _ _ _ h
  | each i body brk t ihb iht =>
    intro busy b m h
    simp only [BScript.Legal] at h ⊢
    cases hv : b.vs[i]? with
    | none =>
      simp only [hv] at h
      exact iht _ _ _ h
    | some v =>
      simp only [hv] at h
      intro es he
      obtain ⟨h1, h2⟩ := h es (hL _ _ he)
      refine ⟨?_, fun l r hl => iht _ _ _ (h2 l r (brounds_mono (fun e b l => bunrolls_mono hL (body e) b l) es b l r hl))⟩
      clear h h2 he hv
      generalize v.1 :: busy = busy' at h1
      induction es generalizing busy' b m with
      | nil => trivial
      | cons e es ih => exact ⟨ihb e _ _ _ h1.1, fun hs l hl => ih _ _ _ (h1.2 hs l (bunrolls_mono hL _ _ _ hl))⟩

/-- A legal script makes a bounded number of steps. -/
theorem blegal_bounded {N : Nat → Prop} (hL : ∀ l es es', L l es → L l es' → es = es') (sc : BScript O K E) :
    ∀ (busy : List Nat) (b : Book O) (m : Nat), sc.Legal ok iok L N busy b m → ∃ n0, ∀ n, n0 ≤ n → sc.Legal ok iok L (· ≤ n) busy b m := by
  induction sc with
  | done => exact fun _ _ _ _ => ⟨0, fun _ _ => trivial⟩
  | call op t ih =>
    rintro busy b m ⟨h1, h2, h3, h4⟩
    obtain ⟨n0, h⟩ := ih _ _ _ h4
    exact ⟨max n0 (m + 1), fun n hn => ⟨by omega, h2, h3, h n (by omega)⟩⟩
  | read i q t ih => exact fun busy b m h => ih _ _ _ h
  | each i body brk t ihb iht =>
    intro busy b m h
    simp only [BScript.Legal] at h ⊢
    cases hv : b.vs[i]? with
    | none =>
      simp only [hv] at h
      exact iht _ _ _ h
    | some v =>
      simp only [hv] at h ⊢
      by_cases hes : ∃ es, L v.2 es
      · obtain ⟨es, he⟩ := hes
        obtain ⟨h1, h2⟩ := h es he
        have hr : ∀ (es : List E) (busy : List Nat) (b : Book O) (m : Nat), BRoundsLegal (fun e => (body e).Unrolls L) brk (fun e => (body e).Legal ok iok L N) es busy b m →
            ∃ n0, ∀ n, n0 ≤ n → BRoundsLegal (fun e => (body e).Unrolls L) brk (fun e => (body e).Legal ok iok L (· ≤ n)) es busy b m := by
          intro es
          induction es with
          | nil => exact fun _ _ _ _ => ⟨0, fun _ _ => trivial⟩
          | cons e es ih =>
            rintro busy b m ⟨h1, h2⟩
            obtain ⟨n1, hn1⟩ := ihb e _ _ _ h1
            by_cases hu : brk e = false ∧ ∃ l, (body e).Unrolls L b l
            · obtain ⟨hs, l, hl⟩ := hu
              obtain ⟨n2, hn2⟩ := ih _ _ _ (h2 hs l hl)
              refine ⟨max n1 n2, fun n hn => ⟨hn1 n (by omega), fun _ l' hl' => ?_⟩⟩
              rw [bunrolls_fun hL _ _ l' l hl' hl]
              exact hn2 n (by omega)
            · exact ⟨n1, fun n hn => ⟨hn1 n hn, fun hs l' hl' => (hu ⟨hs, l', hl'⟩).elim⟩⟩
        obtain ⟨n1, hn1⟩ := hr es (v.1 :: busy) b m h1
        by_cases hu : ∃ l r, BRounds (fun e => (body e).Unrolls L) brk es b l r
        · obtain ⟨l, r, hl⟩ := hu
          obtain ⟨n2, hn2⟩ := iht _ _ _ (h2 l r hl)
          refine ⟨max n1 n2, fun n hn es' he' => ?_⟩
          cases hL _ _ _ he he'
          refine ⟨hn1 n (by omega), fun l' r' hl' => ?_⟩
          obtain ⟨rfl, rfl⟩ := brounds_fun (fun e => bunrolls_fun hL (body e)) es b l' l r' r hl' hl
          exact hn2 n (by omega)
        · refine ⟨n1, fun n hn es' he' => ?_⟩
          cases hL _ _ _ he he'
          exact ⟨hn1 n hn, fun l' r' hl' => (hu ⟨l', r', hl'⟩).elim⟩
      · exact ⟨0, fun n _ es he => (hes ⟨es, he⟩).elim⟩

/-- `obj_bscript` for code with a bound on recursion: with any large enough bound all is well. -/
theorem obj_bscript_fuel {I : Nat → OImpl D O R} (hc : ∀ f, (I f).cowOk = ok) (hi : ∀ f, (I f).inpOk = iok) (ops : List (SOp O))
    (hl : (Book.init : Book O).LegalAll2 ok iok ops) (Rd : Nat → K → R → Prog D A) (P : K → List O → A → Prop) (Ob : Nat → Heap D → R → List O → Prop)
    {Lp : Nat → Loop D R B E} (hL' : ∀ l es, L' l es → L l es) (hfun : ∀ l es es', L' l es → L' l es' → es = es')
    (H : ∀ n, ∃ f0, ∀ f, f0 ≤ f → (I f).Lawful n ∧
      (∀ k h r l F, l.length ≤ n → (I f).Obj h r l F → wp (fun _ => False) (Rd f k r) (fun x h' => h' = h ∧ P k l x) h) ∧
      (∀ h r l F, l.length ≤ n → (I f).Obj h r l F → Ob f h r l) ∧ (Lp f).Lawful (I f) L' n) (sc : BScript O K E)
    (hs : sc.Legal ok iok L (fun _ => True) [] (Book.init.exec ops) ops.length) :
    ∃ f0, ∀ f, f0 ≤ f → ∃ s, OStore.init.exec (I f) ops = .ok s ∧ Leaves id (sc.main (I f) (Rd f) (Lp f) ([], s.roots) .ret) s.heap (BComes P (Ob f) L (Book.init.exec ops) sc) := by
  obtain ⟨n0, hn0⟩ := blegal_bounded hfun sc _ _ _ (blegal_mono hL' sc _ _ _ hs)
  obtain ⟨f0, hf0⟩ := H (max n0 ops.length)
  refine ⟨f0, fun f hf => ?_⟩
  obtain ⟨g1, g2, g3, g4⟩ := hf0 f hf
  have lm : ∀ n, n ≤ max n0 ops.length → (I f).Lawful n := fun n hn =>
    ⟨g1.fresh_ok, g1.lt, g1.frame, fun l o r h F hl => g1.cow_ok l o r h F (by omega), fun l o r h F hl => g1.inp_ok l o r h F (by omega)⟩
  obtain ⟨s, e1, e2⟩ := obj_bscript (N := (· ≤ max n0 ops.length)) lm ops (by omega) (by rw [hc, hi]; exact hl) (Rd f) P (Ob f)
    (fun n hn k h r l F hl => g2 k h r l F (by omega)) (fun n hn h r l F hl => g3 h r l F (by omega)) (Lp := Lp f) (L := L')
    (fun n hn => ⟨fun hl => g4.ok (by omega)⟩) sc (by rw [hc, hi]; exact hn0 _ (by omega))
  refine ⟨s, e1, ⟨e2.noPanic, e2.noDeadlock, e2.terminates, e2.noRace, fun n t x hr hx => ?_⟩⟩
  obtain ⟨w, ⟨T, a1, a2⟩, a3⟩ := e2.result n t x hr hx
  exact ⟨w, ⟨T, bunrolls_mono hL' sc _ T a1, a2⟩, a3⟩

end Verif.Pipe
