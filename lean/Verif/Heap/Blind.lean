import Verif.Heap.Confine

/-!
# The same call in two memories

`Sim ρ C P p q`: the programs `p` and `q` make the same steps, at addresses related by `ρ`, as long as they read cells related by `C` and get
related addresses when they make nodes; they write and make related cells, and they end with related results or with the same panic.  With a
one-to-one `ρ` this is what it takes for the names of the addresses not to matter.
-/

namespace Verif.Heap
open Prog
variable {D E O R α β α' β' : Type}

/-- See above. -/
def Prog.Sim (ρ : Addr → Addr → Prop) (C : Cell D → Cell D → Prop) (P : α → α' → Prop) : Prog D α → Prog D α' → Prop
  | ret x, ret y => P x y
  | stop e, stop e' => e = e'
  | read a k, read b l => ρ a b ∧ ∀ c d, C c d → (k c).Sim ρ C P (l d)
  | write a c k, write b d l => ρ a b ∧ C c d ∧ k.Sim ρ C P l
  | alloc c k, alloc d l => C c d ∧ ∀ a b, ρ a b → (k a).Sim ρ C P (l b)
  | _, _ => False

/-- Both nil or related addresses. -/
def PR (ρ : Addr → Addr → Prop) : Ptr → Ptr → Prop
  | none, none => True
  | some a, some b => ρ a b
  | _, _ => False

/-- A one-to-one relation. -/
def One (ρ : Addr → Addr → Prop) : Prop := ∀ a b c d, ρ a b → ρ c d → (a = c ↔ b = d)

variable {ρ : Addr → Addr → Prop}

theorem PR.none_iff {p q : Ptr} (h : PR ρ p q) : p = none ↔ q = none := by
  cases p <;> cases q <;> simp_all [PR]

theorem PR.not_none {p q : Ptr} (h : PR ρ p q) : p ≠ none ↔ q ≠ none := not_congr h.none_iff

theorem PR.eq_iff (ho : One ρ) {p q p' q' : Ptr} (h : PR ρ p q) (h' : PR ρ p' q') : p = p' ↔ q = q' := by
  cases p <;> cases q <;> cases p' <;> cases q' <;> simp_all [PR]
  exact ho _ _ _ _ h h'

theorem PR.ne_iff (ho : One ρ) {p q p' q' : Ptr} (h : PR ρ p q) (h' : PR ρ p' q') : p ≠ p' ↔ q ≠ q' := not_congr (h.eq_iff ho h')

theorem PR.mono {σ : Addr → Addr → Prop} (h : ∀ a b, ρ a b → σ a b) {p q : Ptr} (hp : PR ρ p q) : PR σ p q := by
  cases p <;> cases q <;> simp_all [PR]

variable {C : Cell D → Cell D → Prop}

theorem sim_bind {P : α → α' → Prop} {Q : β → β' → Prop} {p : Prog D α} {q : Prog D α'} {f : α → Prog D β} {g : α' → Prog D β'} (hp : p.Sim ρ C P q)
    (hf : ∀ x y, P x y → (f x).Sim ρ C Q (g y)) : (p >>= f).Sim ρ C Q (q >>= g) := by
  show (p.bind f).Sim ρ C Q (q.bind g)
  induction p generalizing q with
  | ret x =>
    cases q with
    | ret y => exact hf x y hp
    | _ => exact hp.elim
  | stop e =>
    cases q with
    | stop e' => exact hp
    | _ => exact hp.elim
  | read a k ih =>
    cases q with
    | read b l => exact ⟨hp.1, fun c d hc => ih c (hp.2 c d hc)⟩
    | _ => exact hp.elim
  | write a c k ih =>
    cases q with
    | write b d l => exact ⟨hp.1, hp.2.1, ih hp.2.2⟩
    | _ => exact hp.elim
  | alloc c k ih =>
    cases q with
    | alloc d l => exact ⟨hp.1, fun a b hc => ih a (hp.2 a b hc)⟩
    | _ => exact hp.elim

theorem sim_mono {P Q : α → α' → Prop} {p : Prog D α} {q : Prog D α'} (hp : p.Sim ρ C P q) (h : ∀ x y, P x y → Q x y) : p.Sim ρ C Q q := by
  induction p generalizing q with
  | ret x =>
    cases q with
    | ret y => exact h x y hp
    | _ => exact hp.elim
  | stop e =>
    cases q with
    | stop e' => exact hp
    | _ => exact hp.elim
  | read a k ih =>
    cases q with
    | read b l => exact ⟨hp.1, fun c d hc => ih c (hp.2 c d hc)⟩
    | _ => exact hp.elim
  | write a c k ih =>
    cases q with
    | write b d l => exact ⟨hp.1, hp.2.1, ih hp.2.2⟩
    | _ => exact hp.elim
  | alloc c k ih =>
    cases q with
    | alloc d l => exact ⟨hp.1, fun a b hc => ih a (hp.2 a b hc)⟩
    | _ => exact hp.elim

theorem sim_pure {P : α → α' → Prop} {x : α} {y : α'} (h : P x y) : (pure x : Prog D α).Sim ρ C P (pure y) := h

theorem sim_ite {P : α → α' → Prop} {b b' : Prop} [Decidable b] [Decidable b'] {p q : Prog D α} {p' q' : Prog D α'} (hb : b ↔ b')
    (hp : b → b' → p.Sim ρ C P p') (hq : ¬ b → ¬ b' → q.Sim ρ C P q') : (if b then p else q).Sim ρ C P (if b' then p' else q') := by
  by_cases h : b
  · rw [if_pos h, if_pos (hb.1 h)]; exact hp h (hb.1 h)
  · rw [if_neg h, if_neg fun k => h (hb.2 k)]; exact hq h fun k => h (hb.2 k)

theorem sim_load {P : α → α' → Prop} {n n' : Ptr} (hn : PR ρ n n') {f : Cell D → Prog D α} {g : Cell D → Prog D α'}
    (hf : ∀ c d, C c d → (f c).Sim ρ C P (g d)) : (load n >>= f).Sim ρ C P (load n' >>= g) := by
  cases n <;> cases n'
  · exact rfl
  · exact hn.elim
  · exact hn.elim
  · exact ⟨hn, hf⟩

theorem sim_upd {n n' : Ptr} (hn : PR ρ n n') {f g : Cell D → Cell D} (hg : ∀ c d, C c d → C (f c) (g d)) :
    (upd n f).Sim ρ C (fun _ _ => True) (upd n' g) := by
  cases n <;> cases n'
  · exact rfl
  · exact hn.elim
  · exact hn.elim
  · exact ⟨hn, fun c d hc => ⟨hn, hg c d hc, trivial⟩⟩

theorem sim_new {c d : Cell D} (hc : C c d) : (new c).Sim ρ C ρ (new d) := ⟨hc, fun _ _ h => h⟩

/-- In a memory with several types of cells: related cells are of the same type. -/
theorem sim_lift {K : Kind D E} {CE : Cell E → Cell E → Prop} {P : α → α' → Prop}
    (h1 : ∀ c d, CE c d → (K.cell c = none ∧ K.cell d = none) ∨ ∃ c' d', K.cell c = some c' ∧ K.cell d = some d' ∧ C c' d')
    (h2 : ∀ c d, C c d → CE (c.map K.inj) (d.map K.inj)) {p : Prog D α} {q : Prog D α'} (hp : p.Sim ρ C P q) : (p.lift K).Sim ρ CE P (q.lift K) := by
  induction p generalizing q with
  | ret x =>
    cases q with
    | ret y => exact hp
    | _ => exact hp.elim
  | stop e =>
    cases q with
    | stop e' => exact hp
    | _ => exact hp.elim
  | read a k ih =>
    cases q with
    | read b l =>
      simp only [Prog.lift, Prog.Sim]
      refine ⟨hp.1, fun c d hc => ?_⟩
      rcases h1 c d hc with ⟨e1, e2⟩ | ⟨c', d', e1, e2, e3⟩
      · rw [e1, e2]; exact rfl
      · rw [e1, e2]; exact ih c' (hp.2 c' d' e3)
    | _ => exact hp.elim
  | write a c k ih =>
    cases q with
    | write b d l => exact ⟨hp.1, h2 c d hp.2.1, ih hp.2.2⟩
    | _ => exact hp.elim
  | alloc c k ih =>
    cases q with
    | alloc d l => exact ⟨h2 c d hp.1, fun a b hc => ih a (hp.2 a b hc)⟩
    | _ => exact hp.elim

/-! ## Execution -/

/-- What a call comes to, a result or a panic, and the memory then. -/
def Prog.out : Prog D α → Heap D → Except Err α × Heap D
  | ret x, h => (.ok x, h)
  | stop e, h => (.error e, h)
  | read a k, h =>
    match h.mem a with
    | some c => (k c).out h
    | none => (.error .panic, h)
  | write a c k, h => k.out (h.put a c)
  | alloc c k, h => (k h.next).out (h.push c)

theorem out_run {p : Prog D α} {h h' : Heap D} {x : α} : p.run h = .ok (x, h') ↔ p.out h = (.ok x, h') := by
  induction p generalizing h with
  | ret y => simp [run, Prog.out]
  | stop e => simp [run, Prog.out]
  | read a k ih =>
    simp only [run, Prog.out]
    cases h.mem a with
    | none => simp
    | some c => exact ih c
  | write a c k ih => exact ih
  | alloc c k ih => exact ih _

theorem out_crash {p : Prog D α} {h h' : Heap D} {e : Err} : p.crash h = some (e, h') ↔ p.out h = (.error e, h') := by
  induction p generalizing h with
  | ret y => simp [crash, Prog.out]
  | stop e => simp [crash, Prog.out]
  | read a k ih =>
    simp only [crash, Prog.out]
    cases h.mem a with
    | none => simp
    | some c => exact ih c
  | write a c k ih => exact ih
  | alloc c k ih => exact ih _

theorem out_next (p : Prog D α) (h : Heap D) : h.next ≤ (p.out h).2.next := by
  induction p generalizing h with
  | ret y => exact Nat.le_refl _
  | stop e => exact Nat.le_refl _
  | read a k ih =>
    simp only [Prog.out]
    cases h.mem a with
    | none => exact Nat.le_refl _
    | some c => exact ih c h
  | write a c k ih => exact ih (h.put a c)
  | alloc c k ih => exact Nat.le_trans (Nat.le_succ _) (ih _ (h.push c))

/-- Related outcomes: related results or the same error. -/
def ResR (P : α → α' → Prop) : Except Err α → Except Err α' → Prop
  | .ok x, .ok y => P x y
  | .error e, .error e' => e = e'
  | _, _ => False

/-- Related cells at related addresses. -/
def Cells (ρ : Addr → Addr → Prop) (C : Cell D → Cell D → Prop) (h h' : Heap D) : Prop :=
  ∀ a b, ρ a b → (h.mem a = none ∧ h'.mem b = none) ∨ ∃ c d, h.mem a = some c ∧ h'.mem b = some d ∧ C c d

theorem sim_out (ho : One ρ) {P : α → α' → Prop} {p : Prog D α} {q : Prog D α'} (hp : p.Sim ρ C P q) {h h' : Heap D} (hc : Cells ρ C h h')
    (hn : ∀ i, h.next + i < (p.out h).2.next → ρ (h.next + i) (h'.next + i)) :
    ResR P (p.out h).1 (q.out h').1 ∧ Cells ρ C (p.out h).2 (q.out h').2 ∧ (∃ k, (p.out h).2.next = h.next + k ∧ (q.out h').2.next = h'.next + k) ∧
      (∀ a, (∀ b, ¬ ρ a b) → (p.out h).2.mem a = h.mem a) ∧ ∀ b, (∀ a, ¬ ρ a b) → (q.out h').2.mem b = h'.mem b := by
  induction p generalizing q h h' with
  | ret x =>
    cases q with
    | ret y => exact ⟨hp, hc, ⟨0, rfl, rfl⟩, fun _ _ => rfl, fun _ _ => rfl⟩
    | _ => exact hp.elim
  | stop e =>
    cases q with
    | stop e' => exact ⟨hp, hc, ⟨0, rfl, rfl⟩, fun _ _ => rfl, fun _ _ => rfl⟩
    | _ => exact hp.elim
  | read a k ih =>
    cases q with
    | read b l =>
      simp only [Prog.out] at hn ⊢
      rcases hc a b hp.1 with ⟨e1, e2⟩ | ⟨c, d, e1, e2, e3⟩
      · rw [e1, e2]; exact ⟨rfl, hc, ⟨0, rfl, rfl⟩, fun _ _ => rfl, fun _ _ => rfl⟩
      · rw [e1] at hn ⊢; rw [e2]; exact ih c (hp.2 c d e3) hc hn
    | _ => exact hp.elim
  | write a c k ih =>
    cases q with
    | write b d l =>
      have hc' : Cells ρ C (h.put a c) (h'.put b d) := by
        intro x y hxy
        rw [Heap.mem_put, Heap.mem_put]
        have := ho x y a b hxy hp.1
        by_cases e : x = a
        · rw [if_pos e, if_pos (this.1 e)]; exact .inr ⟨c, d, rfl, rfl, hp.2.1⟩
        · rw [if_neg e, if_neg fun k => e (this.2 k)]; exact hc x y hxy
      obtain ⟨r1, r2, r3, r4, r5⟩ := ih hp.2.2 hc' hn
      refine ⟨r1, r2, r3, fun x hx => (r4 x hx).trans ?_, fun y hy => (r5 y hy).trans ?_⟩
      · rw [Heap.mem_put, if_neg]; rintro rfl; exact hx b hp.1
      · rw [Heap.mem_put, if_neg]; rintro rfl; exact hy a hp.1
    | _ => exact hp.elim
  | alloc c k ih =>
    cases q with
    | alloc d l =>
      have hl := out_next (k h.next) (h.push c)
      have h0 : ρ h.next h'.next := hn 0 hl
      have hc' : Cells ρ C (h.push c) (h'.push d) := by
        intro x y hxy
        simp only [Heap.push]
        have := ho x y _ _ hxy h0
        by_cases e : x = h.next
        · rw [if_pos e, if_pos (this.1 e)]; exact .inr ⟨c, d, rfl, rfl, hp.1⟩
        · rw [if_neg e, if_neg fun k => e (this.2 k)]; exact hc x y hxy
      obtain ⟨r1, r2, ⟨n, r3, r3'⟩, r4, r5⟩ := ih h.next (hp.2 _ _ h0) hc' fun i hi => by
        have := hn (i + 1) (by simp only [Prog.out]; simp only [Heap.push] at hi ⊢; omega)
        simp only [Heap.push]
        rw [Nat.add_right_comm, Nat.add_right_comm h'.next]
        exact this
      refine ⟨r1, r2, ⟨n + 1, ?_, ?_⟩, fun x hx => (r4 x hx).trans ?_, fun y hy => (r5 y hy).trans ?_⟩
      · show ((k h.next).out (h.push c)).2.next = _
        rw [r3]; show h.next + 1 + n = _; omega
      · show ((l h'.next).out (h'.push d)).2.next = _
        rw [r3']; show h'.next + 1 + n = _; omega
      · simp only [Heap.push]; rw [if_neg]; rintro rfl; exact hx _ h0
      · simp only [Heap.push]; rw [if_neg]; rintro rfl; exact hy _ h0
    | _ => exact hp.elim

/-! ## Implementations that do not look at the names of addresses -/

/-- The same addresses, in `S`. -/
def Diag (S : Addr → Prop) (a b : Addr) : Prop := S a ∧ a = b

theorem one_diag (S : Addr → Prop) : One (Diag S) := by
  rintro a b c d ⟨_, rfl⟩ ⟨_, rfl⟩; rfl

/-- `rootR ρ`, `cellR ρ`: roots, cells with the same contents whose pointers are related by `ρ`.  Nothing is asked of the trees. -/
structure OImpl.Blind (I : OImpl D O R) where
  rootR : (Addr → Addr → Prop) → R → R → Prop
  cellR : (Addr → Addr → Prop) → Cell D → Cell D → Prop
  root_mono : ∀ {ρ σ : Addr → Addr → Prop} {r q : R}, (∀ a b, ρ a b → σ a b) → rootR ρ r q → rootR σ r q
  cell_mono : ∀ {ρ σ : Addr → Addr → Prop} {c d : Cell D}, (∀ a b, ρ a b → σ a b) → cellR ρ c d → cellR σ c d
  fresh_r : ∀ ρ, One ρ → I.fresh.Sim ρ (cellR ρ) (rootR ρ) I.fresh
  fresh_ok : ∀ h, ∃ r h', I.fresh.run h = .ok (r, h')
  cow_r : ∀ ρ, One ρ → ∀ o r q, rootR ρ r q → (I.cow o r).Sim ρ (cellR ρ) (rootR ρ) (I.cow o q)
  inp_r : ∀ ρ, One ρ → ∀ o r q, rootR ρ r q → (I.inp o r).Sim ρ (cellR ρ) (rootR ρ) (I.inp o q)

variable {I : OImpl D O R}

/-- Two memories: `ρ` relates what belongs to the origin looked at; `S` is what belongs to the other origins in the first memory. -/
structure Sep (Z : I.Blind) (ρ : Addr → Addr → Prop) (S : Addr → Prop) (h h' : Heap D) : Prop where
  ok : h.Ok
  ok' : h'.Ok
  one : One ρ
  lt : ∀ a b, ρ a b → a < h.next ∧ b < h'.next
  sep : ∀ a, S a → a < h.next ∧ ∀ b, ¬ ρ a b
  cells : Cells ρ (Z.cellR ρ) h h'
  zone : Cells (Diag S) (Z.cellR (Diag S)) h h

theorem Cells.mono {ρ : Addr → Addr → Prop} {C C' : Cell D → Cell D → Prop} {h h' : Heap D} (hc : Cells ρ C h h') (hi : ∀ c d, C c d → C' c d) :
    Cells ρ C' h h' := fun a b hab => (hc a b hab).imp id fun ⟨c, d, e1, e2, e3⟩ => ⟨c, d, e1, e2, hi c d e3⟩

/-- A call on a tree of the origin looked at, made in both memories. -/
theorem sep_both {Z : I.Blind} {ρ : Addr → Addr → Prop} {S : Addr → Prop} {h h' : Heap D} (hs : Sep Z ρ S h h') {P : (Addr → Addr → Prop) → α → α' → Prop}
    {p : Prog D α} {q : Prog D α'} (hp : ∀ σ : Addr → Addr → Prop, (∀ a b, ρ a b → σ a b) → One σ → p.Sim σ (Z.cellR σ) (P σ) q) :
    ∃ σ : Addr → Addr → Prop, (∀ a b, ρ a b → σ a b) ∧ Sep Z σ S (p.out h).2 (q.out h').2 ∧ ResR (P σ) (p.out h).1 (q.out h').1 := by
  have hl := out_next p h
  generalize hN : (p.out h).2.next = N at hl
  have hsub : ∀ a b, ρ a b → (ρ a b ∨ ∃ i, h.next + i < N ∧ a = h.next + i ∧ b = h'.next + i) := fun a b k => .inl k
  have ho : One fun a b => ρ a b ∨ ∃ i, h.next + i < N ∧ a = h.next + i ∧ b = h'.next + i := by
    rintro a b c d (h1 | ⟨i, i1, rfl, rfl⟩) (h2 | ⟨j, j1, rfl, rfl⟩)
    · exact hs.one a b c d h1 h2
    · have := hs.lt _ _ h1; omega
    · have := hs.lt _ _ h2; omega
    · omega
  obtain ⟨r1, r2, ⟨k, r3, r3'⟩, r4, r5⟩ := sim_out ho (hp _ hsub ho) (h := h) (h' := h') (by
    rintro a b (hab | ⟨i, i1, rfl, rfl⟩)
    · rcases hs.cells a b hab with e | ⟨c, d, e1, e2, e3⟩
      · exact .inl e
      · exact .inr ⟨c, d, e1, e2, Z.cell_mono hsub e3⟩
    · exact .inl ⟨hs.ok _ (by omega), hs.ok' _ (by omega)⟩) (fun i hi => .inr ⟨i, by omega, rfl, rfl⟩)
  refine ⟨_, hsub, ⟨fun a ha => ?_, fun b hb => ?_, ho, ?_, fun a ha => ?_, r2, ?_⟩, r1⟩
  · rw [r4 a]
    · exact hs.ok a (by omega)
    · rintro b (k | ⟨i, _, rfl, _⟩)
      · have := hs.lt _ _ k; omega
      · omega
  · rw [r5 b]
    · exact hs.ok' b (by omega)
    · rintro a (k | ⟨i, _, _, rfl⟩)
      · have := hs.lt _ _ k; omega
      · omega
  · rintro a b (k | ⟨i, _, rfl, rfl⟩)
    · have := hs.lt _ _ k; omega
    · omega
  · have := hs.sep a ha
    refine ⟨by omega, ?_⟩
    rintro b (k | ⟨i, _, rfl, _⟩)
    · exact this.2 b k
    · omega
  · rintro a b ⟨ha, rfl⟩
    have := hs.sep a ha
    rw [r4 a]
    · exact hs.zone a a ⟨ha, rfl⟩
    · rintro b (k | ⟨i, _, rfl, _⟩)
      · exact this.2 b k
      · omega

/-- A call on a tree of another origin, made in the first memory only. -/
theorem sep_left {Z : I.Blind} {ρ : Addr → Addr → Prop} {S : Addr → Prop} {h h' : Heap D} (hs : Sep Z ρ S h h') {P : (Addr → Addr → Prop) → α → α → Prop}
    {p : Prog D α} (hp : ∀ T : Addr → Prop, (∀ a, S a → T a) → p.Sim (Diag T) (Z.cellR (Diag T)) (P (Diag T)) p) :
    ∃ T : Addr → Prop, (∀ a, S a → T a) ∧ Sep Z ρ T (p.out h).2 h' ∧ ResR (P (Diag T)) (p.out h).1 (p.out h).1 := by
  have hl := out_next p h
  generalize hN : (p.out h).2.next = N at hl
  have hsub : ∀ a, S a → (S a ∨ (h.next ≤ a ∧ a < N)) := fun a k => .inl k
  have hd : ∀ a b, Diag S a b → Diag (fun a => S a ∨ (h.next ≤ a ∧ a < N)) a b := fun a b k => ⟨hsub a k.1, k.2⟩
  obtain ⟨r1, r2, _, r4, _⟩ := sim_out (one_diag _) (hp _ hsub) (h := h) (h' := h) (by
    rintro a b ⟨ha | ha, rfl⟩
    · exact (hs.zone.mono fun c d => Z.cell_mono hd) a a ⟨ha, rfl⟩
    · exact .inl ⟨hs.ok _ ha.1, hs.ok _ ha.1⟩) (fun i hi => ⟨.inr ⟨by omega, by omega⟩, rfl⟩)
  have fr : ∀ a, a < h.next → ¬ S a → (p.out h).2.mem a = h.mem a := fun a h1 h2 => r4 a (by
    rintro b ⟨k | k, _⟩
    · exact h2 k
    · omega)
  refine ⟨_, hsub, ⟨fun a ha => ?_, hs.ok', hs.one, fun a b hab => ?_, ?_, fun a b hab => ?_, r2⟩, r1⟩
  · rw [r4 a]
    · exact hs.ok a (by omega)
    · rintro b ⟨k | k, _⟩
      · have := hs.sep a k; omega
      · omega
  · have := hs.lt a b hab; omega
  · rintro a (k | k)
    · have := hs.sep a k; exact ⟨by omega, this.2⟩
    · refine ⟨by omega, fun b hb => ?_⟩
      have := hs.lt a b hb; omega
  · rw [fr a (hs.lt a b hab).1 fun k => (hs.sep a k).2 b hab]
    exact hs.cells a b hab

/-- A call on a tree of another origin, made in the second memory only: it uses nothing but new nodes. -/
theorem sep_right {Z : I.Blind} {ρ : Addr → Addr → Prop} {S : Addr → Prop} {h h' : Heap D} (hs : Sep Z ρ S h h') {P : (Addr → Addr → Prop) → α → α → Prop}
    {p : Prog D α} (hp : ∀ T : Addr → Prop, p.Sim (Diag T) (Z.cellR (Diag T)) (P (Diag T)) p) : Sep Z ρ S h (p.out h').2 := by
  have hl := out_next p h'
  generalize hN : (p.out h').2.next = N at hl
  obtain ⟨_, _, _, r4, _⟩ := sim_out (one_diag _) (hp fun a => h'.next ≤ a ∧ a < N) (h := h') (h' := h') (by
    rintro a b ⟨ha, rfl⟩
    exact .inl ⟨hs.ok' _ ha.1, hs.ok' _ ha.1⟩) (fun i hi => ⟨⟨by omega, by omega⟩, rfl⟩)
  have fr : ∀ a, ¬ (h'.next ≤ a ∧ a < N) → (p.out h').2.mem a = h'.mem a := fun a h1 => r4 a (by
    rintro b ⟨k, _⟩
    exact h1 k)
  refine ⟨hs.ok, fun b hb => ?_, hs.one, fun a b hab => ?_, hs.sep, fun a b hab => ?_, hs.zone⟩
  · rw [fr b (by omega)]; exact hs.ok' b (by omega)
  · have := hs.lt a b hab; omega
  · have := hs.lt a b hab
    rw [fr b (by omega)]; exact hs.cells a b hab

end Verif.Heap
