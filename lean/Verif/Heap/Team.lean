import Verif.Heap.Alone
import Verif.Heap.Fleet

/-!
# Goroutines on one memory

Any number of goroutines take turns, one memory access at a time, on one memory with one supply of new addresses.  Goroutines that have no node in common, or
write none of those they have in common, do not notice each other: each is where it would be alone after as many accesses, up to the names of addresses.
-/

namespace Verif.Heap
open Prog
variable {D O R T : Type} {I : OImpl D O R} {α : T → Type} {β : Type}

/-- The memory and what each goroutine has before it. -/
structure Team (D T : Type) (α : T → Type) where
  heap : Heap D
  prog : (t : T) → Prog D (α t)

/-- One memory access of goroutine `t`.  A goroutine that has ended lets its turn pass. -/
def Team.step [DecidableEq T] (s : Team D T α) (t : T) : Team D T α :=
  match (s.prog t).step s.heap with
  | none => s
  | some (p, h) => ⟨h, fun u => if e : u = t then e ▸ p else s.prog u⟩

/-- A schedule. -/
def Team.exec [DecidableEq T] (s : Team D T α) : List T → Team D T α
  | [] => s
  | t :: ts => (s.step t).exec ts

/-- The cell the next access of a program reads or writes, if there is one. -/
def Prog.reaches : Prog D β → Option Addr
  | .read a _ => some a
  | .write a _ _ => some a
  | _ => none

/-- A run of the program alone from this memory writes no cell in `B`. -/
def Prog.Off (B : Addr → Prop) : Prog D β → Heap D → Prop
  | .ret _, _ => True
  | .stop _, _ => True
  | .read a k, h => ∀ c, h.mem a = some c → (k c).Off B h
  | .write a c k, h => ¬ B a ∧ k.Off B (h.put a c)
  | .alloc c k, h => (k h.next).Off B (h.push c)

theorem off_none {p : Prog D β} {h : Heap D} : p.Off (fun _ => False) h := by
  induction p generalizing h with
  | ret x => trivial
  | stop e => trivial
  | read a k ih => exact fun c _ => ih c
  | write a c k ih => exact ⟨id, ih⟩
  | alloc c k ih => exact ih _

theorem off_wp {B W : Addr → Prop} (hB : ∀ a, W a → ¬ B a) {p : Prog D β} {Q : β → Heap D → Prop} {h : Heap D} (hp : wp W p Q h) : p.Off B h := by
  induction p generalizing h with
  | ret x => trivial
  | stop e => trivial
  | read a k ih =>
    obtain ⟨c, h1, h2⟩ := hp
    intro c' h3
    rw [h1] at h3
    cases h3
    exact ih c h2
  | write a c k ih => exact ⟨hB a hp.1, ih hp.2.2⟩
  | alloc c k ih => exact ih _ hp

theorem off_step {B : Addr → Prop} {p q : Prog D β} {h h' : Heap D} (hp : p.Off B h) (hs : p.step h = some (q, h')) : q.Off B h' := by
  cases p with
  | ret x => cases hs
  | stop e => cases hs
  | read a k =>
    simp only [Prog.step] at hs
    cases e : h.mem a with
    | none => rw [e] at hs; cases hs; trivial
    | some c => rw [e] at hs; cases hs; exact hp c e
  | write a c k => cases hs; exact hp.2
  | alloc c k => cases hs; exact hp

theorem off_writes {B : Addr → Prop} {p : Prog D β} {h : Heap D} (hp : p.Off B h) {a : Addr} (ha : p.writes = some a) : ¬ B a := by
  cases p <;> simp only [Prog.writes] at ha <;> cases ha
  exact hp.1

theorem step_out {p q : Prog D β} {h h' : Heap D} (hs : p.step h = some (q, h')) : q.out h' = p.out h ∧ q.left h' + 1 = p.left h := by
  cases p with
  | ret x => cases hs
  | stop e => cases hs
  | read a k =>
    simp only [Prog.step] at hs
    cases e : h.mem a with
    | none => rw [e] at hs; cases hs; simp [Prog.out, Prog.left, e]
    | some c => rw [e] at hs; cases hs; simp [Prog.out, Prog.left, e]
  | write a c k => cases hs; exact ⟨rfl, rfl⟩
  | alloc c k => cases hs; exact ⟨rfl, rfl⟩

/-- The programs do the same at addresses related by `ρ`, and by any relation that extends it. -/
def Abreast (Z : I.Blind) (ρ : Addr → Addr → Prop) (P : (Addr → Addr → Prop) → β → β → Prop) (p q : Prog D β) : Prop :=
  ∀ σ : Addr → Addr → Prop, (∀ a b, ρ a b → σ a b) → One σ → p.Sim σ (Z.cellR σ) (P σ) q

theorem kept_step {Z : I.Blind} {ρ : Addr → Addr → Prop} {P : (Addr → Addr → Prop) → β → β → Prop} {p q p1 : Prog D β} {h h' h1 : Heap D} (hk : Abreast Z ρ P p q) (ho : One ρ)
    (hl : ∀ a b, ρ a b → a < h.next ∧ b < h'.next) (hc : Cells ρ (Z.cellR ρ) h h') (hs : p.step h = some (p1, h1)) :
    ∃ (σ : Addr → Addr → Prop) (q1 : Prog D β) (h1' : Heap D), q.step h' = some (q1, h1') ∧ Abreast Z σ P p1 q1 ∧ One σ ∧ (∀ a b, σ a b → a < h1.next ∧ b < h1'.next) ∧
      Cells σ (Z.cellR σ) h1 h1' ∧ h.next ≤ h1.next ∧ (∀ a b, σ a b → ρ a b ∨ (h.next ≤ a ∧ h'.next ≤ b)) ∧ h'.next ≤ h1'.next ∧
      ∀ x, x < h.next → h1.mem x = h.mem x ∨ ∃ b, ρ x b ∧ q.writes = some b := by
  have h0 := hk ρ (fun _ _ k => k) ho
  cases p with
  | ret x => cases hs
  | stop e => cases hs
  | read a k =>
    cases q with
    | read b l =>
      simp only [Prog.step] at hs ⊢
      rcases hc a b h0.1 with ⟨e1, e2⟩ | ⟨c, d, e1, e2, e3⟩
      · rw [e1] at hs; cases hs; rw [e2]
        exact ⟨ρ, _, _, rfl, fun σ _ _ => rfl, ho, hl, hc, Nat.le_refl _, fun _ _ k => .inl k, Nat.le_refl _, fun _ _ => .inl rfl⟩
      · rw [e1] at hs; cases hs; rw [e2]
        exact ⟨ρ, _, _, rfl, fun σ hσ o => (hk σ hσ o).2 c d (Z.cell_mono hσ e3), ho, hl, hc, Nat.le_refl _, fun _ _ k => .inl k, Nat.le_refl _, fun _ _ => .inl rfl⟩
    | _ => exact h0.elim
  | write a c k =>
    cases q with
    | write b d l =>
      cases hs
      refine ⟨ρ, _, _, rfl, fun σ hσ o => (hk σ hσ o).2.2, ho, hl, fun x y hxy => ?_, Nat.le_refl _, fun _ _ k => .inl k, Nat.le_refl _, fun x hx => ?_⟩
      · rw [Heap.mem_put, Heap.mem_put]
        have := ho x y a b hxy h0.1
        by_cases e : x = a
        · rw [if_pos e, if_pos (this.1 e)]; exact .inr ⟨c, d, rfl, rfl, h0.2.1⟩
        · rw [if_neg e, if_neg fun k => e (this.2 k)]; exact hc x y hxy
      · by_cases e : x = a
        · subst e; exact .inr ⟨b, h0.1, rfl⟩
        · left; rw [Heap.mem_put, if_neg e]
    | _ => exact h0.elim
  | alloc c k =>
    cases q with
    | alloc d l =>
      cases hs
      have hsub : ∀ a b, ρ a b → (ρ a b ∨ (a = h.next ∧ b = h'.next)) := fun _ _ k => .inl k
      have ho' : One fun a b => ρ a b ∨ (a = h.next ∧ b = h'.next) := by
        rintro x y z w (k | ⟨rfl, rfl⟩) (k' | ⟨rfl, rfl⟩)
        · exact ho x y z w k k'
        · have := hl _ _ k; omega
        · have := hl _ _ k'; omega
        · omega
      refine ⟨_, _, _, rfl, fun σ hσ o => (hk σ (fun a b k => hσ a b (.inl k)) o).2 _ _ (hσ _ _ (.inr ⟨rfl, rfl⟩)), ho', ?_, ?_, Nat.le_succ _, ?_, Nat.le_succ _, fun x hx => ?_⟩
      · rintro a b (k | ⟨rfl, rfl⟩)
        · have := hl _ _ k
          simp only [Heap.push]; omega
        · simp only [Heap.push]; omega
      · intro x y hxy
        simp only [Heap.push]
        have := ho' x y h.next h'.next hxy (.inr ⟨rfl, rfl⟩)
        by_cases e : x = h.next
        · rw [if_pos e, if_pos (this.1 e)]; exact .inr ⟨c, d, rfl, rfl, Z.cell_mono hsub h0.1⟩
        · rw [if_neg e, if_neg fun k => e (this.2 k)]
          rcases hxy with hxy | ⟨hxy, _⟩
          · rcases hc x y hxy with e | ⟨c, d, e1, e2, e3⟩
            · exact .inl e
            · exact .inr ⟨c, d, e1, e2, Z.cell_mono hsub e3⟩
          · exact (e hxy).elim
      · rintro a b (k | ⟨rfl, rfl⟩)
        · exact .inl k
        · exact .inr ⟨Nat.le_refl _, Nat.le_refl _⟩
      · left; simp only [Heap.push]; rw [if_neg (by omega)]
    | _ => exact h0.elim

/-- A goroutine beside its run alone: `q` and `g` are what it would have before it, and the memory, after as many accesses alone. -/
structure Beside (Z : I.Blind) (h0 h : Heap D) (B : Addr → Prop) (P : (Addr → Addr → Prop) → β → β → Prop) (p0 p : Prog D β) (n : Nat) (ρ : Addr → Addr → Prop) (q : Prog D β) (g : Heap D) : Prop where
  kept : Abreast Z ρ P p q
  one : One ρ
  lt : ∀ a b, ρ a b → a < h.next ∧ b < g.next
  cells : Cells ρ (Z.cellR ρ) h g
  off : q.Off B g
  next : h0.next ≤ g.next
  shared : ∀ a b, ρ a b → B a → B b
  out : q.out g = p0.out h0
  left : q.left g ≤ p0.left h0 - n

/-- Invariant of every schedule. -/
structure Team.Inv (Z : I.Blind) (h0 : Heap D) (B : Addr → Prop) (P : (t : T) → (Addr → Addr → Prop) → α t → α t → Prop) (p0 : (t : T) → Prog D (α t)) (n : T → Nat)
    (s : Team D T α) (ρ : T → Addr → Addr → Prop) (q : (t : T) → Prog D (α t)) (g : T → Heap D) : Prop where
  next : h0.next ≤ s.heap.next
  each : ∀ t, Beside Z h0 s.heap B (P t) (p0 t) (s.prog t) (n t) (ρ t) (q t) (g t)
  apart : ∀ t u, t ≠ u → ∀ a b c, ρ t a b → ρ u a c → B a
  old : ∀ a, B a → a < h0.next
  frozen : ∀ a, B a → s.heap.mem a = h0.mem a

theorem Team.inv_step [DecidableEq T] {Z : I.Blind} {h0 : Heap D} {B : Addr → Prop} {P : (t : T) → (Addr → Addr → Prop) → α t → α t → Prop} {p0 : (t : T) → Prog D (α t)} {n : T → Nat}
    {s : Team D T α} {ρ : T → Addr → Addr → Prop} {q : (t : T) → Prog D (α t)} {g : T → Heap D} (hi : s.Inv Z h0 B P p0 n ρ q g) (t : T) :
    ∃ ρ' q' g', (s.step t).Inv Z h0 B P p0 (fun u => n u + if u = t then 1 else 0) ρ' q' g' := by
  have ht := hi.each t
  cases hs : (s.prog t).step s.heap with
  | none =>
    have e : s.step t = s := by simp only [Team.step, hs]
    rw [e]
    refine ⟨ρ, q, g, hi.next, fun u => ?_, hi.apart, hi.old, hi.frozen⟩
    have hu := hi.each u
    refine ⟨hu.kept, hu.one, hu.lt, hu.cells, hu.off, hu.next, hu.shared, hu.out, ?_⟩
    by_cases e : u = t
    · subst e
      have h0 := ht.kept (ρ u) (fun _ _ k => k) ht.one
      have : (q u).left (g u) = 0 := by
        cases hp : s.prog u with
        | ret x =>
          rw [hp] at h0
          cases hq : q u with
          | ret y => rfl
          | _ => rw [hq] at h0; exact h0.elim
        | stop x =>
          rw [hp] at h0
          cases hq : q u with
          | stop y => rfl
          | _ => rw [hq] at h0; exact h0.elim
        | read a k =>
          rw [hp] at hs
          simp only [Prog.step] at hs
          split at hs <;> cases hs
        | write a c k => rw [hp] at hs; cases hs
        | alloc c k => rw [hp] at hs; cases hs
      rw [this]; exact Nat.zero_le _
    · rw [if_neg e]; exact hu.left
  | some ph =>
    obtain ⟨p1, h1⟩ := ph
    obtain ⟨σ, q1, g1, k1, k2, k3, k4, k5, k6, k7, k8, k9⟩ := kept_step ht.kept ht.one ht.lt ht.cells hs
    have eh : (s.step t).heap = h1 := by simp only [Team.step, hs]
    have ept : (s.step t).prog t = p1 := by simp only [Team.step, hs, dite_true]
    have epu : ∀ u, u ≠ t → (s.step t).prog u = s.prog u := fun u hu => by simp only [Team.step, hs, dif_neg hu]
    have hcl := step_out k1
    refine ⟨fun u => if u = t then σ else ρ u, fun u => if e : u = t then e ▸ q1 else q u, fun u => if u = t then g1 else g u, ?_, fun u => ?_, ?_, hi.old, fun a ha => ?_⟩
    · rw [eh]; exact Nat.le_trans hi.next k6
    · by_cases e : u = t
      · subst e
        simp only [if_true, dite_true, eh, ept]
        refine ⟨k2, k3, k4, k5, off_step ht.off k1, Nat.le_trans ht.next k8, fun a b hab hB => ?_, hcl.1.trans ht.out, ?_⟩
        · rcases k7 a b hab with k | ⟨k, _⟩
          · exact ht.shared a b k hB
          · have := hi.old a hB
            have := hi.next
            omega
        · have := ht.left
          have := hcl.2
          omega
      · have hu := hi.each u
        simp only [if_neg e, dif_neg e, eh, epu u e]
        refine ⟨hu.kept, hu.one, fun a b hab => ?_, fun a b hab => ?_, hu.off, hu.next, hu.shared, hu.out, hu.left⟩
        · have := hu.lt a b hab; omega
        · rcases k9 a (hu.lt a b hab).1 with k | ⟨c, hac, hw⟩
          · rw [k]; exact hu.cells a b hab
          · exact (off_writes ht.off hw (ht.shared a c hac (hi.apart u t e a b c hab hac))).elim
    · intro u v huv a b c
      have new : ∀ w, w ≠ t → ∀ b c, σ a b → ρ w a c → B a := fun w hw b c h1 h2 => by
        rcases k7 a b h1 with k | ⟨k, _⟩
        · exact hi.apart t w (fun e => hw e.symm) a b c k h2
        · have := ((hi.each w).lt a c h2).1; omega
      by_cases e : u = t
      · have e' : v ≠ t := fun k => huv (e.trans k.symm)
        simp only [if_pos e, if_neg e']
        exact new v e' b c
      · by_cases e' : v = t
        · simp only [if_neg e, if_pos e']
          exact fun x y => new u e c b y x
        · simp only [if_neg e, if_neg e']
          exact hi.apart u v huv a b c
    · rw [eh, ← hi.frozen a ha]
      rcases k9 a (Nat.lt_of_lt_of_le (hi.old a ha) hi.next) with k | ⟨c, hac, hw⟩
      · exact k
      · exact (off_writes ht.off hw (ht.shared a c hac ha)).elim

theorem Team.inv_exec [DecidableEq T] {Z : I.Blind} {h0 : Heap D} {B : Addr → Prop} {P : (t : T) → (Addr → Addr → Prop) → α t → α t → Prop} {p0 : (t : T) → Prog D (α t)} {n : T → Nat}
    {s : Team D T α} {ρ : T → Addr → Addr → Prop} {q : (t : T) → Prog D (α t)} {g : T → Heap D} (hi : s.Inv Z h0 B P p0 n ρ q g) (sched : List T) :
    ∃ ρ' q' g', (s.exec sched).Inv Z h0 B P p0 (fun u => n u + sched.count u) ρ' q' g' := by
  induction sched generalizing s n ρ q g with
  | nil => exact ⟨ρ, q, g, hi⟩
  | cons t ts ih =>
    obtain ⟨ρ', q', g', hi'⟩ := Team.inv_step hi t
    have := ih hi'
    have e : (fun u => n u + List.count u (t :: ts)) = fun u => (n u + if u = t then 1 else 0) + ts.count u := by
      funext u
      rw [List.count_cons]
      by_cases e : u = t
      · subst e; simp; omega
      · have : ¬ t = u := fun h => e h.symm
        simp [e, this]
    rw [e]; exact this

/-- What holds after any schedule: a goroutine that has ended has the result, or the panic, of its run alone, and what it left in memory is like what it leaves alone; with enough turns it
has ended; it is not about to write one of the cells nobody writes, and two goroutines are at the same cell only if it is one of these; these cells are what they were. -/
theorem team_result [DecidableEq T] {Z : I.Blind} {h0 : Heap D} {B : Addr → Prop} {P : (t : T) → (Addr → Addr → Prop) → α t → α t → Prop} {p0 : (t : T) → Prog D (α t)}
    {ρ : T → Addr → Addr → Prop} (hi : (Team.mk h0 p0).Inv Z h0 B P p0 (fun _ => 0) ρ p0 fun _ => h0) (sched : List T) (t : T) :
    let s := (Team.mk h0 p0).exec sched
    (∀ x, s.prog t = .ret x → ∃ σ y g, (p0 t).run h0 = .ok (y, g) ∧ P t σ x y ∧ One σ ∧ (∀ a b, σ a b → a < s.heap.next ∧ b < g.next) ∧ Cells σ (Z.cellR σ) s.heap g) ∧
    (∀ e, s.prog t = .stop e → (p0 t).comes h0 = .error e) ∧
    ((p0 t).left h0 ≤ sched.count t → (∃ x, s.prog t = .ret x) ∨ ∃ e, s.prog t = .stop e) ∧
    (∀ a, (s.prog t).writes = some a → ¬ B a) ∧ (∀ u, u ≠ t → ∀ a, (s.prog t).reaches = some a → (s.prog u).reaches = some a → B a) ∧
    h0.next ≤ s.heap.next ∧ ∀ a, B a → s.heap.mem a = h0.mem a := by
  intro s
  obtain ⟨ρ', q, g, hI⟩ : ∃ ρ' q' g', s.Inv Z h0 B P p0 (fun u => 0 + sched.count u) ρ' q' g' := Team.inv_exec hi sched
  have ht := hI.each t
  have touch : ∀ u a, (s.prog u).reaches = some a → ∃ b, ρ' u a b ∧ ((s.prog u).writes = none ∨ (q u).writes = some b) := fun u a ha => by
    have h0 := (hI.each u).kept (ρ' u) (fun _ _ k => k) (hI.each u).one
    cases hp : s.prog u with
    | read x k =>
      rw [hp] at h0 ha
      cases hq : q u with
      | read y l => rw [hq] at h0; cases ha; exact ⟨y, h0.1, .inl rfl⟩
      | _ => rw [hq] at h0; exact h0.elim
    | write x c k =>
      rw [hp] at h0 ha
      cases hq : q u with
      | write y d l => rw [hq] at h0; cases ha; exact ⟨y, h0.1, .inr rfl⟩
      | _ => rw [hq] at h0; exact h0.elim
    | ret x => rw [hp] at ha; cases ha
    | stop x => rw [hp] at ha; cases ha
    | alloc x k => rw [hp] at ha; cases ha
  have hk := ht.kept (ρ' t) (fun _ _ k => k) ht.one
  refine ⟨fun x hx => ?_, fun e he => ?_, fun hc => ?_, fun a hw => ?_, fun u hu a h1 h2 => ?_, hI.next, hI.frozen⟩
  · rw [hx] at hk
    cases hq : q t with
    | ret y =>
      have hcm := ht.out
      rw [hq] at hk hcm
      exact ⟨_, y, g t, out_run.2 hcm.symm, hk, ht.one, ht.lt, ht.cells⟩
    | _ => rw [hq] at hk; exact hk.elim
  · rw [he] at hk
    cases hq : q t with
    | stop e' =>
      have hcm := ht.out
      rw [hq] at hk hcm
      cases hk
      rw [comes_out, ← hcm]
      rfl
    | _ => rw [hq] at hk; exact hk.elim
  · have hl := ht.left
    cases hp : s.prog t with
    | ret x => exact .inl ⟨x, rfl⟩
    | stop e => exact .inr ⟨e, rfl⟩
    | read a k =>
      rw [hp] at hk
      cases hq : q t with
      | read b l =>
        rw [hq] at hl
        simp only [Prog.left] at hl
        split at hl <;> omega
      | _ => rw [hq] at hk; exact hk.elim
    | write a c k =>
      rw [hp] at hk
      cases hq : q t with
      | write b d l => rw [hq] at hl; simp only [Prog.left] at hl; omega
      | _ => rw [hq] at hk; exact hk.elim
    | alloc c k =>
      rw [hp] at hk
      cases hq : q t with
      | alloc d l => rw [hq] at hl; simp only [Prog.left] at hl; omega
      | _ => rw [hq] at hk; exact hk.elim
  · have ha : (s.prog t).reaches = some a := by
      cases hp : s.prog t <;> rw [hp] at hw <;> cases hw
      rfl
    obtain ⟨b, hb, h | h⟩ := touch t a ha
    · rw [hw] at h; cases h
    · exact fun hB => off_writes ht.off h (ht.shared a b hb hB)
  · obtain ⟨b, hb, hw⟩ := touch t a h1
    obtain ⟨c, hc, _⟩ := touch u a h2
    exact hI.apart t u (fun e => hu e.symm) a b c hb hc

end Verif.Heap
