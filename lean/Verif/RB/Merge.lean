import Verif.RB.History
import Verif.Core.Merge

/-! # Merging one red-black tree into another -/

namespace Verif.RB
open Verif.Merge
variable {K V : Type} {cmp : K → K → Int}

theorem stored_miss {l : List (K × V)} (ops : List (KOp K V)) {q : K} (hl : ∀ x ∈ l, cmp x.1 q ≠ 0) :
    lastWriteBy cmp (l.map (fun e => .insert e.1 e.2) ++ ops) q = lastWriteBy cmp ops q ∧
      firstSpelling cmp (l.map (fun e => .insert e.1 e.2) ++ ops) q = firstSpelling cmp ops q := by
  induction l with
  | nil => exact ⟨rfl, rfl⟩
  | cons e l ih =>
    have h1 := ih fun x hx => hl x (by simp [hx])
    simp only [List.map_cons, List.cons_append, lastWriteBy, firstSpelling, if_neg (hl e (by simp))]
    exact h1

/-- What entries with pairwise different keys leave when stored one by one. -/
theorem stored_hit (hc : LawfulCmp cmp) {l : List (K × V)} (hl : l.Pairwise fun a b => cmp a.1 b.1 ≠ 0) (ops : List (KOp K V)) {x : K × V}
    (hx : x ∈ l) {q : K} (hq : cmp x.1 q = 0) :
    lastWriteBy cmp (l.map (fun e => .insert e.1 e.2) ++ ops) q = some x.2 ∧
      firstSpelling cmp (l.map (fun e => .insert e.1 e.2) ++ ops) q = (firstSpelling cmp ops q).or (some x.1) := by
  have eqv : ∀ {a b c}, cmp a c = 0 → cmp b c = 0 → cmp a b = 0 := by
    intro a b c h1 h2
    have s1 := hc.swap a c; have s2 := hc.swap c a; have s3 := hc.swap b c; have s4 := hc.swap c b
    have s5 := hc.swap a b; have s6 := hc.swap b a
    have t1 := hc.trans a c b (by omega) (by omega)
    have t2 := hc.trans b c a (by omega) (by omega)
    omega
  induction l with
  | nil => cases hx
  | cons e l ih =>
    rw [List.pairwise_cons] at hl
    simp only [List.map_cons, List.cons_append, lastWriteBy, firstSpelling]
    rcases List.mem_cons.1 hx with rfl | hx
    · simp only [if_pos hq, true_and]
      rw [(stored_miss ops fun y hy h => hl.1 y hy (eqv hq h)).2]
    · have hn : cmp e.1 q ≠ 0 := fun h => hl.1 x hx (eqv h hq)
      simp only [if_neg hn]
      exact ih hl.2 hx

theorem mem_of_run [Inhabited V] (hc : LawfulCmp cmp) {ops : List (KOp K V)} {t : RTree K V} (h : run cmp ops = some t) (x : K × V) (q : K)
    (hq : cmp x.1 q = 0) : x ∈ enumerate t ↔ firstSpelling cmp ops q = some x.1 ∧ lastWriteBy cmp ops q = some x.2 := by
  obtain ⟨h1, h2⟩ := run_spec hc h
  have h3 := h1.lookupL_iff hc q x
  rw [h2] at h3
  rw [show (x ∈ enumerate t ↔ x ∈ enumerate t ∧ cmp x.1 q = 0) from by simp [hq], ← h3]
  obtain ⟨k, v⟩ := x
  cases firstSpelling cmp ops q <;> cases lastWriteBy cmp ops q <;> simp

theorem merge_overlay [Inhabited V] (hc : LawfulCmp cmp) {ops1 ops2 : List (KOp K V)} {t1 t2 t : RTree K V} (h1 : run cmp ops1 = some t1)
    (h2 : run cmp ops2 = some t2) {l : List (K × V)} (hl : l.Perm (enumerate t2))
    (h : run cmp (l.map (fun e => .insert e.1 e.2) ++ ops1) = some t) : OverlayBy cmp (enumerate t1) (enumerate t2) (enumerate t) := by
  have hs2 := (run_spec hc h2).1
  have sw : ∀ a b, cmp a b = 0 → cmp b a = 0 := by
    intro a b e; have := hc.swap a b; have := hc.swap b a; omega
  have hp : l.Pairwise fun a b => cmp a.1 b.1 ≠ 0 :=
    (hl.pairwise_iff (fun {a b} hab e => hab (sw _ _ e))).2 (hs2.imp fun hab e => by omega)
  have refl := hc.refl
  intro x
  rw [mem_of_run hc h x x.1 (refl _)]
  by_cases hit : ∃ b ∈ enumerate t2, cmp b.1 x.1 = 0
  · obtain ⟨b, hb, hbx⟩ := hit
    obtain ⟨e1, e2⟩ := stored_hit hc hp ops1 (hl.mem_iff.2 hb) hbx
    rw [e1, e2]
    have nomiss : ¬ (x ∈ enumerate t1 ∧ ∀ y ∈ enumerate t2, cmp y.1 x.1 ≠ 0) := fun h => h.2 b hb hbx
    have uniq : ∀ c ∈ enumerate t2, cmp c.1 x.1 = 0 → c = b := by
      intro c hc' hcx
      have g1 := (hs2.lookupL_iff hc x.1 c).2 ⟨hc', hcx⟩
      have g2 := (hs2.lookupL_iff hc x.1 b).2 ⟨hb, hbx⟩
      rw [g1] at g2; exact Option.some.inj g2
    cases hf : firstSpelling cmp ops1 x.1 with
    | none =>
      have none1 : ∀ y ∈ enumerate t1, cmp y.1 x.1 ≠ 0 := by
        intro y hy e
        rw [mem_of_run hc h1 y x.1 e, hf] at hy
        exact absurd hy.1 (by simp)
      simp only [Option.none_or, Option.some.injEq]
      constructor
      · rintro ⟨g1, g2⟩
        exact .inl ⟨by rw [show x = b from Prod.ext g1.symm g2.symm]; exact hb, none1⟩
      · rintro (⟨g1, _⟩ | g | ⟨a, ha, c, hcc, hac, rfl⟩)
        · have := uniq x g1 (refl _); subst this; exact ⟨rfl, rfl⟩
        · exact absurd g nomiss
        · exact absurd (refl _) (none1 a ha)
    | some k =>
      obtain ⟨w, hw⟩ : ∃ w, lastWriteBy cmp ops1 x.1 = some w := by
        have := firstSpelling_isSome (cmp := cmp) ops1 x.1
        rw [hf] at this; exact Option.isSome_iff_exists.1 this.symm
      have hk : ∃ a ∈ enumerate t1, cmp a.1 x.1 = 0 ∧ a.1 = k := by
        have h3 := (run_spec hc h1).2 x.1
        rw [hf, hw] at h3
        exact ⟨_, ((run_spec hc h1).1.lookupL_iff hc x.1 (k, w)).1 h3 |>.1, (((run_spec hc h1).1.lookupL_iff hc x.1 (k, w)).1 h3).2, rfl⟩
      obtain ⟨a, ha, hax, rfl⟩ := hk
      simp only [Option.some_or, Option.some.injEq]
      constructor
      · rintro ⟨g1, g2⟩
        exact .inr (.inr ⟨a, ha, b, hb, by rw [g1]; exact sw _ _ hbx, Prod.ext g1.symm g2.symm⟩)
      · rintro (⟨_, g1⟩ | g | ⟨a', ha', c, hcc, hac, rfl⟩)
        · exact absurd hax (g1 a ha)
        · exact absurd g nomiss
        · have hcb := uniq c hcc (sw _ _ hac)
          subst hcb
          have g1 := ((run_spec hc h1).1.lookupL_iff hc a'.1 a).2 ⟨ha, hax⟩
          have g2 := ((run_spec hc h1).1.lookupL_iff hc a'.1 a').2 ⟨ha', refl _⟩
          rw [g1] at g2; cases g2
          exact ⟨rfl, rfl⟩
  · have hn : ∀ y ∈ enumerate t2, cmp y.1 x.1 ≠ 0 := fun y hy e => hit ⟨y, hy, e⟩
    obtain ⟨e1, e2⟩ := stored_miss ops1 fun y hy => hn y (hl.mem_iff.1 hy)
    rw [e1, e2, ← mem_of_run hc h1 x x.1 (refl _)]
    constructor
    · intro hx; exact .inr (.inl ⟨hx, hn⟩)
    · rintro (⟨g1, _⟩ | ⟨g, _⟩ | ⟨a, ha, c, hcc, hac, rfl⟩)
      · exact absurd (refl _) (hn x g1)
      · exact g
      · exact absurd (sw _ _ hac) (hn c hcc)

theorem merge_get [Inhabited V] (hc : LawfulCmp cmp) (ops1 : List (KOp K V)) {ops2 : List (KOp K V)} {t2 : RTree K V}
    (h2 : run cmp ops2 = some t2) {l : List (K × V)} (hl : l.Perm (enumerate t2)) (q : K) :
    lastWriteBy cmp (l.map (fun e => .insert e.1 e.2) ++ ops1) q = (lastWriteBy cmp ops2 q).or (lastWriteBy cmp ops1 q) := by
  have hs2 := (run_spec hc h2).1
  have hp : l.Pairwise fun a b => cmp a.1 b.1 ≠ 0 :=
    (hl.pairwise_iff (fun {a b} hab e => hab (by have := hc.swap a.1 b.1; have := hc.swap b.1 a.1; omega))).2 (hs2.imp fun hab e => by omega)
  by_cases hit : ∃ b ∈ enumerate t2, cmp b.1 q = 0
  · obtain ⟨b, hb, hq⟩ := hit
    rw [(stored_hit hc hp ops1 (hl.mem_iff.2 hb) hq).1, ((mem_of_run hc h2 b q hq).1 hb).2]; rfl
  · rw [(stored_miss ops1 fun x hx e => hit ⟨x, hl.mem_iff.1 hx, e⟩).1]
    cases hw : lastWriteBy cmp ops2 q with
    | none => rfl
    | some v =>
      have hf := firstSpelling_isSome (cmp := cmp) ops2 q
      rw [hw] at hf
      obtain ⟨k, hk⟩ := Option.isSome_iff_exists.1 hf
      have h3 := (run_spec hc h2).2 q
      rw [hk, hw] at h3
      have h4 := (hs2.lookupL_iff hc q (k, v)).1 h3
      exact absurd ⟨_, h4.1, h4.2⟩ hit

end Verif.RB
