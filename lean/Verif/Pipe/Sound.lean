import Verif.Pipe.Model

/-!
# The outcome does not depend on the schedule

If the caller keeps the fields a goroutine reads until it has seen the channel closed, then what the goroutine sends is fixed
when it starts.
-/

namespace Verif.Pipe
open Verif.Heap

variable {D X B α β σ : Type} {φ : Cell D → X} {h : Heap D}

/-! ## Running alone -/

/-- What is known to stay at addresses. -/
abbrev Pin (X : Type) := Addr → Option X

/-- What a goroutine sends when it runs alone in a memory with the fields `pin`, with the lists the channels it holds still deliver
(`none` for a channel it has seen closed), and the number of steps it and the goroutines it starts take; `none` when something
panics or a channel is left open. -/
def Gen.out (pin : Pin X) : Gen X B → List (Option (List B)) → Option (List B × Nat)
  | .done, q => if ∀ o ∈ q, o = none then some ([], 0) else none
  | .fail, _ => none
  | .read a k, q => (pin a).bind fun x => ((k x).out pin q).map fun r => (r.1, r.2 + 1)
  | .send b g, q => (g.out pin q).map fun r => (b :: r.1, r.2 + 1)
  | .go g k, q => (g.out pin []).bind fun x => ((k q.length).out pin (q ++ [some x.1])).map fun r => (r.1, r.2 + x.2 + 1)
  | .recv i k, q =>
    match q[i]? with
    | some (some (b :: l)) => ((k (some b)).out pin (q.set i (some l))).map fun r => (r.1, r.2 + 1)
    | some (some []) => ((k none).out pin (q.set i none)).map fun r => (r.1, r.2 + 1)
    | some none => ((k none).out pin q).map fun r => (r.1, r.2 + 1)
    | none => none

mutual
/-- The same for a goroutine that is under way. -/
def Proc.Good (pin : Pin X) : Proc X B → List B → Nat → Prop
  | .mk g ks, l, n => ∃ q a b, goods pin ks q a ∧ g.out pin q = some (l, b) ∧ n = a + b
/-- The same for several. -/
def goods (pin : Pin X) : List (Proc X B) → List (Option (List B)) → Nat → Prop
  | [], q, n => q = [] ∧ n = 0
  | p :: ps, q, n => ∃ o q' a b, q = o :: q' ∧ n = a + b ∧ goods pin ps q' b ∧
    ((o = none ∧ p.Over ∧ a = 0) ∨ ∃ l, o = some l ∧ p.Good pin l a)
end

/-- One goroutine with what its channel still delivers. -/
def good (pin : Pin X) (p : Proc X B) (o : Option (List B)) (a : Nat) : Prop := (o = none ∧ p.Over ∧ a = 0) ∨ ∃ l, o = some l ∧ p.Good pin l a

/-- Memory has the fields `pin`. -/
def Holds (φ : Cell D → X) (pin : Pin X) (h : Heap D) : Prop := ∀ a x, pin a = some x → a < h.next ∧ ∃ c, h.mem a = some c ∧ φ c = x

variable {pin : Pin X}

theorem goods_length : ∀ {ks : List (Proc X B)} {q : List (Option (List B))} {n : Nat}, goods pin ks q n → q.length = ks.length
  | [], _, _, h => by rw [goods] at h; simp [h.1]
  | p :: ps, _, _, h => by
    rw [goods] at h
    obtain ⟨o, q', a, b, rfl, _, h2, _⟩ := h
    simp [goods_length h2]

theorem goods_get : ∀ {ks : List (Proc X B)} {q : List (Option (List B))} {n i : Nat} {p : Proc X B}, goods pin ks q n → ks[i]? = some p →
    ∃ o m, good pin p o m ∧ q[i]? = some o ∧ ∀ p' o' m', good pin p' o' m' → ∃ n', goods pin (ks.set i p') (q.set i o') n' ∧ n' + m = n + m'
  | [], _, _, _, _, _, hi => by simp at hi
  | x :: ps, q, n, i, p, h, hi => by
    rw [goods] at h
    obtain ⟨o, q', a, b, rfl, rfl, h2, h1⟩ := h
    cases i with
    | zero =>
      simp only [List.getElem?_cons_zero, Option.some.injEq] at hi
      subst hi
      refine ⟨o, a, h1, rfl, fun p' o' m' hp => ⟨m' + b, ?_, by omega⟩⟩
      simp only [List.set_cons_zero, goods]
      exact ⟨o', q', m', b, rfl, rfl, h2, hp⟩
    | succ i =>
      simp only [List.getElem?_cons_succ] at hi
      obtain ⟨o1, m, a1, a2, a3⟩ := goods_get h2 hi
      refine ⟨o1, m, a1, a2, fun p' l' m' hp => ?_⟩
      obtain ⟨n', b1, b2⟩ := a3 p' l' m' hp
      refine ⟨a + n', ?_, by omega⟩
      simp only [List.set_cons_succ, goods]
      exact ⟨o, _, a, n', rfl, rfl, b1, h1⟩

theorem goods_append : ∀ {ks : List (Proc X B)} {q : List (Option (List B))} {n m : Nat} {p : Proc X B} {l : List B}, goods pin ks q n → p.Good pin l m →
    goods pin (ks ++ [p]) (q ++ [some l]) (n + m)
  | [], q, n, m, p, l, h, hp => by
    rw [goods] at h
    obtain ⟨rfl, rfl⟩ := h
    simp only [List.nil_append, goods]
    exact ⟨some l, [], m, 0, rfl, by omega, ⟨rfl, rfl⟩, .inr ⟨l, rfl, hp⟩⟩
  | x :: ps, q, n, m, p, l, h, hp => by
    rw [goods] at h
    obtain ⟨o, q', a, b, rfl, rfl, h2, h1⟩ := h
    simp only [List.cons_append, goods]
    exact ⟨o, _, a, b + m, rfl, by omega, goods_append h2 hp, h1⟩

theorem goods_over : ∀ {ks : List (Proc X B)} {q : List (Option (List B))} {n : Nat}, goods pin ks q n → (∀ o ∈ q, o = none) → allOver ks ∧ n = 0
  | [], _, _, h, _ => by rw [goods] at h; exact ⟨trivial, h.2⟩
  | p :: ps, _, _, h, hq => by
    rw [goods] at h
    obtain ⟨o, q', a, b, rfl, rfl, h2, h1⟩ := h
    obtain ⟨a1, a2⟩ := goods_over h2 fun o ho => hq o (by simp [ho])
    rcases h1 with ⟨_, h1, rfl⟩ | ⟨l, rfl, _⟩
    · exact ⟨⟨h1, a1⟩, by omega⟩
    · exact absurd (hq _ List.mem_cons_self) (by simp)

/-- A goroutine that has returned is over. -/
theorem good_done {ks : List (Proc X B)} {l : List B} {n : Nat} (h : (Proc.mk .done ks : Proc X B).Good pin l n) :
    l = [] ∧ n = 0 ∧ (Proc.mk .done ks : Proc X B).Over := by
  rw [Proc.Good] at h
  obtain ⟨q, a, b, h1, h2, rfl⟩ := h
  simp only [Gen.out] at h2
  split at h2
  · rename_i hq
    obtain ⟨h3, rfl⟩ := goods_over h1 hq
    cases h2
    exact ⟨rfl, rfl, by rw [Proc.Over]; exact ⟨rfl, h3⟩⟩
  · cases h2

theorem set_same {A : Type} {q : List A} {i : Nat} {l : A} (h : q[i]? = some l) : q.set i l = q := by
  induction q generalizing i with
  | nil => rfl
  | cons x q ih =>
    cases i with
    | zero => simp at h; simp [h]
    | succ i => simp at h; simp [ih h]

theorem allOver_get : ∀ {ks : List (Proc X B)} {i : Nat} {p : Proc X B}, allOver ks → ks[i]? = some p → p.Over
  | [], _, _, _, hi => by simp at hi
  | x :: ps, i, p, h, hi => by
    rw [allOver] at h
    cases i with
    | zero => simp at hi; exact hi ▸ h.1
    | succ i => exact allOver_get h.2 (by simpa using hi)

/-- What is over does not move. -/
theorem PStep.not_over {p p' : Proc X B} {o : Option B} (st : PStep φ h p o p') : ¬ p.Over := by
  induction st with
  | kid hi _ ih =>
    intro ho
    rw [Proc.Over] at ho
    exact ih (allOver_get ho.2 hi)
  | _ => intro ho; rw [Proc.Over] at ho; cases ho.1

/-- A step uses up what is left. -/
theorem PStep.sound (hk : Holds φ pin h) {p p' : Proc X B} {o : Option B} (st : PStep φ h p o p') : ∀ {l : List B} {n : Nat}, p.Good pin l n →
    ∃ l' n', p'.Good pin l' n' ∧ l = o.toList ++ l' ∧ n' < n := by
  induction st with
  | @read a c k ks hc =>
    intro l n ho
    simp only [Proc.Good, Gen.out, Option.bind_eq_some_iff, Option.map_eq_some_iff] at ho
    obtain ⟨q, m, b, h1, ⟨x, h2, r, h3, e⟩, rfl⟩ := ho
    obtain ⟨_, c', h5, h6⟩ := hk a x h2
    rw [hc] at h5; cases h5
    cases e
    refine ⟨r.1, m + r.2, ?_, rfl, by omega⟩
    rw [Proc.Good, h6]
    exact ⟨q, m, r.2, h1, h3, rfl⟩
  | send =>
    intro l n ho
    simp only [Proc.Good, Gen.out, Option.map_eq_some_iff] at ho
    obtain ⟨q, m, b, h1, ⟨r, h3, e⟩, rfl⟩ := ho
    cases e
    refine ⟨r.1, m + r.2, ?_, rfl, by omega⟩
    rw [Proc.Good]
    exact ⟨q, m, r.2, h1, h3, rfl⟩
  | @go g k ks =>
    intro l n ho
    simp only [Proc.Good, Gen.out, Option.bind_eq_some_iff, Option.map_eq_some_iff] at ho
    obtain ⟨q, m, b, h1, ⟨x, h2, r, h3, e⟩, rfl⟩ := ho
    cases e
    have h4 := goods_append (m := x.2) (l := x.1) h1 (p := .mk g []) (by
      rw [Proc.Good]; exact ⟨[], 0, x.2, by simp [goods], h2, by omega⟩)
    rw [goods_length h1] at h3
    refine ⟨r.1, m + x.2 + r.2, ?_, rfl, by omega⟩
    rw [Proc.Good]
    exact ⟨_, _, r.2, h4, h3, rfl⟩
  | @recv i k ks p p' b hi st ih =>
    intro l n ho
    simp only [Proc.Good, Gen.out] at ho
    obtain ⟨q, m, b', h1, h2, rfl⟩ := ho
    obtain ⟨o, m1, a1, a2, a3⟩ := goods_get h1 hi
    rcases a1 with ⟨_, a1, _⟩ | ⟨l1, rfl, a1⟩
    · exact absurd a1 st.not_over
    · obtain ⟨l2, m2, b1, b2, b3⟩ := ih a1
      obtain ⟨n', c1, c2⟩ := a3 _ (some l2) _ (.inr ⟨_, rfl, b1⟩)
      subst b2
      simp only [a2, Option.toList, List.cons_append, List.nil_append, Option.map_eq_some_iff] at h2
      obtain ⟨r, h2, e⟩ := h2
      cases e
      refine ⟨r.1, n' + r.2, ?_, rfl, by omega⟩
      rw [Proc.Good]
      exact ⟨_, _, r.2, c1, h2, rfl⟩
  | @closed i k ks ks' hi =>
    intro l n ho
    simp only [Proc.Good, Gen.out] at ho
    obtain ⟨q, m, b', h1, h2, rfl⟩ := ho
    obtain ⟨o, m1, a1, a2, a3⟩ := goods_get h1 hi
    rcases a1 with ⟨rfl, a1, _⟩ | ⟨l1, rfl, a1⟩
    · simp only [a2, Option.map_eq_some_iff] at h2
      obtain ⟨r, h2, e⟩ := h2
      cases e
      refine ⟨r.1, m + r.2, ?_, rfl, by omega⟩
      rw [Proc.Good]
      exact ⟨_, _, r.2, h1, h2, rfl⟩
    · obtain ⟨rfl, rfl, d1⟩ := good_done a1
      obtain ⟨n', c1, c2⟩ := a3 _ none 0 (.inl ⟨rfl, d1, rfl⟩)
      rw [set_same hi] at c1
      simp only [a2, Option.map_eq_some_iff] at h2
      obtain ⟨r, h2, e⟩ := h2
      cases e
      refine ⟨r.1, n' + r.2, ?_, rfl, by omega⟩
      rw [Proc.Good]
      exact ⟨_, _, r.2, c1, h2, rfl⟩
  | @kid i g ks p p' hi st ih =>
    intro l n ho
    simp only [Proc.Good] at ho
    obtain ⟨q, m, b', h1, h2, rfl⟩ := ho
    obtain ⟨o, m1, a1, a2, a3⟩ := goods_get h1 hi
    rcases a1 with ⟨_, a1, _⟩ | ⟨l1, rfl, a1⟩
    · exact absurd a1 st.not_over
    · obtain ⟨l2, m2, b1, b2, b3⟩ := ih a1
      obtain ⟨n', c1, c2⟩ := a3 _ (some l2) _ (.inr ⟨_, rfl, b1⟩)
      have b2 : l1 = l2 := b2
      subst b2
      rw [set_same a2] at c1
      refine ⟨l, n' + b', ?_, rfl, by omega⟩
      rw [Proc.Good]
      exact ⟨_, _, b', c1, h2, rfl⟩

theorem allOver_not_bad : ∀ {p : Proc X B}, p.Bad h → ¬ p.Over := by
  intro p hb
  induction hb with
  | kid hi _ ih =>
    intro ho
    rw [Proc.Over] at ho
    exact ih (allOver_get ho.2 hi)
  | _ => intro ho; rw [Proc.Over] at ho; cases ho.1

/-- Nothing panics. -/
theorem not_bad (hk : Holds φ pin h) {p : Proc X B} (hb : p.Bad h) : ∀ {l : List B} {n : Nat}, ¬ p.Good pin l n := by
  induction hb with
  | fail =>
    intro l n ho
    rw [Proc.Good] at ho
    obtain ⟨_, _, _, _, h, _⟩ := ho
    cases h
  | @wild a k ks hm =>
    intro l n ho
    simp only [Proc.Good, Gen.out, Option.bind_eq_some_iff] at ho
    obtain ⟨q, m, b, h1, ⟨x, h2, _⟩, rfl⟩ := ho
    obtain ⟨_, c', h5, h6⟩ := hk a x h2
    rw [hm] at h5; cases h5
  | kid hi hb ih =>
    intro l n ho
    simp only [Proc.Good] at ho
    obtain ⟨q, m, b', h1, h2, rfl⟩ := ho
    obtain ⟨o, m1, a1, a2, a3⟩ := goods_get h1 hi
    rcases a1 with ⟨_, a1, _⟩ | ⟨l1, rfl, a1⟩
    · exact allOver_not_bad hb a1
    · exact ih a1

theorem over_done {p : Proc X B} (h : p.Over) : ∃ ks, p = .mk .done ks := by
  cases p with
  | mk g ks => rw [Proc.Over] at h; exact ⟨ks, by rw [h.1]⟩

mutual
/-- A goroutine that has not returned can move or wants to send. -/
theorem progress (hk : Holds φ pin h) : ∀ (p : Proc X B) {l : List B} {n : Nat}, p.Good pin l n →
    (∃ ks, p = .mk .done ks) ∨ (∃ p', PStep φ h p none p') ∨ ∃ b p', PStep φ h p (some b) p'
  | .mk g ks, l, n, ho => by
    rw [Proc.Good] at ho
    obtain ⟨q, m, b, h1, h2, _⟩ := ho
    cases g with
    | done => exact .inl ⟨_, rfl⟩
    | fail => simp [Gen.out] at h2
    | read a k =>
      simp only [Gen.out, Option.bind_eq_some_iff] at h2
      obtain ⟨x, h3, _⟩ := h2
      obtain ⟨_, c', h5, h6⟩ := hk a x h3
      exact .inr (.inl ⟨_, .read h5⟩)
    | send b g => exact .inr (.inr ⟨_, _, .send⟩)
    | go g k => exact .inr (.inl ⟨_, .go⟩)
    | recv i k =>
      simp only [Gen.out] at h2
      have hl := goods_length h1
      cases hi : ks[i]? with
      | none =>
        rw [List.getElem?_eq_none_iff] at hi
        rw [List.getElem?_eq_none (by omega)] at h2
        cases h2
      | some p =>
        rcases progressL hk ks h1 p (List.mem_of_getElem? hi) with ⟨ks', rfl⟩ | ⟨p', st⟩ | ⟨b, p', st⟩
        · exact .inr (.inl ⟨_, .closed hi⟩)
        · exact .inr (.inl ⟨_, .kid hi st⟩)
        · exact .inr (.inl ⟨_, .recv hi st⟩)
theorem progressL (hk : Holds φ pin h) : ∀ (ks : List (Proc X B)) {q : List (Option (List B))} {n : Nat}, goods pin ks q n → ∀ p ∈ ks,
    (∃ ks, p = .mk .done ks) ∨ (∃ p', PStep φ h p none p') ∨ ∃ b p', PStep φ h p (some b) p'
  | [], _, _, _, p, hp => by simp at hp
  | x :: ps, q, n, ho, p, hp => by
    rw [goods] at ho
    obtain ⟨o, q', a, b, _, _, h2, h1⟩ := ho
    rcases List.mem_cons.1 hp with hx | hp
    · rw [hx]
      rcases h1 with ⟨_, h1, _⟩ | ⟨l, _, h1⟩
      · exact .inl (over_done h1)
      · exact progress hk x h1
    · exact progressL hk ps h2 p hp
end

/-! ## The caller -/

/-- What the caller knows of its channels: what the goroutine reads and what it still delivers; `none` after it has been seen
closed. -/
abbrev Chans (X B : Type) := List (Option (Pin X × List B))

/-- Run with the goroutines' lists fixed when they start, the caller ends in `Q` after at most `N` steps (those of the goroutines
included) with all channels seen closed, never changes a field that a goroutine reads whose channel it has not seen closed, and never
writes below `base`. -/
def Main.wpn (φ : Cell D → X) (base : Nat) (Q : α → Heap D → Prop) : Main D X B α → Nat → Chans X B → Heap D → Prop
  | .ret x, _, q, h => (∀ o ∈ q, o = none) ∧ Q x h
  | .stop _, _, _, _ => False
  | .read a k, N, q, h => ∃ c M, h.mem a = some c ∧ N = M + 1 ∧ (k c).wpn φ base Q M q h
  | .write a c k, N, q, h => base ≤ a ∧ (∀ p l x, some (p, l) ∈ q → p a = some x → φ c = x) ∧ ∃ M, N = M + 1 ∧ k.wpn φ base Q M q (h.put a c)
  | .alloc c k, N, q, h => ∃ M, N = M + 1 ∧ (k h.next).wpn φ base Q M q (h.push c)
  | .go g k, N, q, h => ∃ pin l m M, Holds φ pin h ∧ g.out pin [] = some (l, m) ∧ N = M + m + 1 ∧ (k q.length).wpn φ base Q M (q ++ [some (pin, l)]) h
  | .recv i k, N, q, h => (∃ p b l M, q[i]? = some (some (p, b :: l)) ∧ N = M + 1 ∧ (k (some b)).wpn φ base Q M (q.set i (some (p, l))) h) ∨
      (∃ p M, q[i]? = some (some (p, [])) ∧ N = M + 1 ∧ (k none).wpn φ base Q M (q.set i none) h) ∨
      ∃ M, q[i]? = some none ∧ N = M + 1 ∧ (k none).wpn φ base Q M q h

/-- A goroutine of the caller in memory `h`. -/
def kidOk (φ : Cell D → X) (h : Heap D) (p : Proc X B) (o : Option (Pin X × List B)) (a : Nat) : Prop :=
  (o = none ∧ p.Over ∧ a = 0) ∨ ∃ pin l, o = some (pin, l) ∧ Holds φ pin h ∧ p.Good pin l a

/-- The goroutines of the caller. -/
def kidsOk (φ : Cell D → X) (h : Heap D) : List (Proc X B) → Chans X B → Nat → Prop
  | [], q, n => q = [] ∧ n = 0
  | p :: ps, q, n => ∃ o q' a b, q = o :: q' ∧ n = a + b ∧ kidsOk φ h ps q' b ∧ kidOk φ h p o a

/-- The whole ends in `Q` within `N` steps. -/
def Sys.Ok (φ : Cell D → X) (base : Nat) (Q : α → Heap D → Prop) (N : Nat) (s : Sys D X B α) : Prop :=
  ∃ q n M, kidsOk φ s.heap s.kids q n ∧ M + n ≤ N ∧ s.main.wpn φ base Q M q s.heap

theorem kidsOk_length : ∀ {ks : List (Proc X B)} {q : Chans X B} {n : Nat}, kidsOk φ h ks q n → q.length = ks.length
  | [], _, _, h => by simp [h.1]
  | p :: ps, _, _, h => by
    obtain ⟨o, q', a, b, rfl, _, h2, _⟩ := h
    simp [kidsOk_length h2]

theorem kidsOk_get : ∀ {ks : List (Proc X B)} {q : Chans X B} {n i : Nat} {p : Proc X B}, kidsOk φ h ks q n → ks[i]? = some p →
    ∃ o m, kidOk φ h p o m ∧ q[i]? = some o ∧ ∀ p' o' m', kidOk φ h p' o' m' → ∃ n', kidsOk φ h (ks.set i p') (q.set i o') n' ∧ n' + m = n + m'
  | [], _, _, _, _, _, hi => by simp at hi
  | x :: ps, q, n, i, p, hh, hi => by
    obtain ⟨o, q', a, b, rfl, rfl, h2, h1⟩ := hh
    cases i with
    | zero =>
      simp only [List.getElem?_cons_zero, Option.some.injEq] at hi
      subst hi
      exact ⟨o, a, h1, rfl, fun p' o' m' hp => ⟨m' + b, ⟨o', q', m', b, rfl, rfl, h2, hp⟩, by omega⟩⟩
    | succ i =>
      simp only [List.getElem?_cons_succ] at hi
      obtain ⟨o1, m, a1, a2, a3⟩ := kidsOk_get h2 hi
      refine ⟨o1, m, a1, a2, fun p' l' m' hp => ?_⟩
      obtain ⟨n', b1, b2⟩ := a3 p' l' m' hp
      exact ⟨a + n', ⟨o, _, a, n', rfl, rfl, b1, h1⟩, by omega⟩

theorem kidsOk_append : ∀ {ks : List (Proc X B)} {q : Chans X B} {n m : Nat} {p : Proc X B} {o : Option (Pin X × List B)}, kidsOk φ h ks q n → kidOk φ h p o m →
    kidsOk φ h (ks ++ [p]) (q ++ [o]) (n + m)
  | [], q, n, m, p, o, hh, hp => by
    obtain ⟨rfl, rfl⟩ := hh
    exact ⟨o, [], m, 0, rfl, by omega, ⟨rfl, rfl⟩, hp⟩
  | x :: ps, q, n, m, p, o', hh, hp => by
    obtain ⟨o, q', a, b, rfl, rfl, h2, h1⟩ := hh
    exact ⟨o, _, a, b + m, rfl, by omega, kidsOk_append h2 hp, h1⟩

theorem kidsOk_mono {h' : Heap D} : ∀ {ks : List (Proc X B)} {q : Chans X B} {n : Nat}, kidsOk φ h ks q n →
    (∀ p l, some (p, l) ∈ q → Holds φ p h → Holds φ p h') → kidsOk φ h' ks q n
  | [], _, _, h, _ => h
  | p :: ps, _, _, hh, hm => by
    obtain ⟨o, q', a, b, rfl, rfl, h2, h1⟩ := hh
    refine ⟨o, q', a, b, rfl, rfl, kidsOk_mono h2 fun p l hp => hm p l (by simp [hp]), ?_⟩
    rcases h1 with h1 | ⟨pin, l, rfl, h3, h4⟩
    · exact .inl h1
    · exact .inr ⟨pin, l, rfl, hm pin l (by simp) h3, h4⟩

theorem kidsOk_over : ∀ {ks : List (Proc X B)} {q : Chans X B} {n : Nat}, kidsOk φ h ks q n → (∀ o ∈ q, o = none) → allOver ks
  | [], _, _, _, _ => trivial
  | p :: ps, _, _, hh, hq => by
    obtain ⟨o, q', a, b, rfl, rfl, h2, h1⟩ := hh
    refine ⟨?_, kidsOk_over h2 fun o ho => hq o (by simp [ho])⟩
    rcases h1 with ⟨_, h1, _⟩ | ⟨pin, l, rfl, _⟩
    · exact h1
    · exact absurd (hq _ List.mem_cons_self) (by simp)

theorem Holds.put (hk : Holds φ pin h) {a : Addr} {c : Cell D} (hc : ∀ x, pin a = some x → φ c = x) : Holds φ pin (h.put a c) := by
  intro b x hx
  obtain ⟨h1, c', h2, h3⟩ := hk b x hx
  refine ⟨h1, ?_⟩
  simp only [Heap.put]
  by_cases e : b = a
  · subst e; exact ⟨c, by simp, hc x hx⟩
  · exact ⟨c', by simp [e, h2], h3⟩

theorem Holds.push (hk : Holds φ pin h) {c : Cell D} : Holds φ pin (h.push c) := by
  intro b x hx
  obtain ⟨h1, c', h2, h3⟩ := hk b x hx
  refine ⟨Nat.lt_succ_of_lt h1, c', ?_, h3⟩
  have : b ≠ h.next := by omega
  simp [Heap.push, this, h2]

theorem Step.ok {base : Nat} {Q : α → Heap D → Prop} {s s' : Sys D X B α} (st : Step φ s s') {N : Nat} (ho : s.Ok φ base Q N) : ∃ M, M < N ∧ s'.Ok φ base Q M := by
  obtain ⟨q, n, M, h1, h2, h3⟩ := ho
  cases st with
  | read hc =>
    obtain ⟨c, M', a1, rfl, a2⟩ := h3
    rw [hc] at a1; cases a1
    exact ⟨M' + n, by omega, q, n, M', h1, Nat.le_refl _, a2⟩
  | write =>
    obtain ⟨_, a1, M', rfl, a2⟩ := h3
    exact ⟨M' + n, by omega, q, n, M', kidsOk_mono h1 fun p l hp hh => hh.put fun x hx => a1 p l x hp hx, Nat.le_refl _, a2⟩
  | alloc =>
    obtain ⟨M', rfl, a2⟩ := h3
    exact ⟨M' + n, by omega, q, n, M', kidsOk_mono h1 fun p l hp hh => hh.push, Nat.le_refl _, a2⟩
  | @go _ g _ _ =>
    obtain ⟨pin, l, m, M', a0, a1, rfl, a2⟩ := h3
    have h4 := kidsOk_append (m := m) (o := some (pin, l)) h1 (p := .mk g []) (.inr ⟨pin, l, rfl, a0, by
      rw [Proc.Good]; exact ⟨[], 0, m, by simp [goods], a1, by omega⟩⟩)
    rw [kidsOk_length h1] at a2
    exact ⟨M' + (n + m), by omega, _, _, M', h4, Nat.le_refl _, a2⟩
  | recv hi st =>
    obtain ⟨o, m1, a1, a2, a3⟩ := kidsOk_get h1 hi
    rcases a1 with ⟨_, a1, _⟩ | ⟨pin, l1, rfl, hk, a1⟩
    · exact absurd a1 st.not_over
    · obtain ⟨l2, m2, b1, b2, b3⟩ := st.sound hk a1
      obtain ⟨n', c1, c2⟩ := a3 _ (some (pin, l2)) _ (.inr ⟨_, _, rfl, hk, b1⟩)
      subst b2
      rcases h3 with ⟨p, b, l, M', d1, rfl, d2⟩ | ⟨p, M', d1, _⟩ | ⟨M', d1, _⟩
      · rw [a2] at d1; cases d1
        exact ⟨M' + n', by omega, _, _, M', c1, Nat.le_refl _, d2⟩
      · rw [a2] at d1; cases d1
      · rw [a2] at d1; cases d1
  | closed hi =>
    obtain ⟨o, m1, a1, a2, a3⟩ := kidsOk_get h1 hi
    rcases a1 with ⟨rfl, a1, rfl⟩ | ⟨pin, l1, rfl, hk, a1⟩
    · rcases h3 with ⟨p, b, l, M', d1, rfl, d2⟩ | ⟨p, M', d1, _⟩ | ⟨M', d1, rfl, d2⟩
      · rw [a2] at d1; cases d1
      · rw [a2] at d1; cases d1
      · exact ⟨M' + n, by omega, _, _, M', h1, Nat.le_refl _, d2⟩
    · obtain ⟨rfl, rfl, d0⟩ := good_done a1
      obtain ⟨n', c1, c2⟩ := a3 _ none 0 (.inl ⟨rfl, d0, rfl⟩)
      rw [set_same hi] at c1
      rcases h3 with ⟨p, b, l, M', d1, rfl, d2⟩ | ⟨p, M', d1, rfl, d2⟩ | ⟨M', d1, _⟩
      · rw [a2] at d1; cases d1
      · exact ⟨M' + n', by omega, _, _, M', c1, Nat.le_refl _, d2⟩
      · rw [a2] at d1; cases d1
  | kid hi st =>
    obtain ⟨o, m1, a1, a2, a3⟩ := kidsOk_get h1 hi
    rcases a1 with ⟨_, a1, _⟩ | ⟨pin, l1, rfl, hk, a1⟩
    · exact absurd a1 st.not_over
    · obtain ⟨l2, m2, b1, b2, b3⟩ := st.sound hk a1
      obtain ⟨n', c1, c2⟩ := a3 _ (some (pin, l2)) _ (.inr ⟨_, _, rfl, hk, b1⟩)
      have b2 : l1 = l2 := b2
      subst b2
      rw [set_same a2] at c1
      exact ⟨M + n', by omega, _, _, M, c1, Nat.le_refl _, h3⟩

theorem ok_runs {base : Nat} {Q : α → Heap D → Prop} {s s' : Sys D X B α} {k N : Nat} (hr : Spec.Runs (Step φ) k s s') (ho : s.Ok φ base Q N) : ∃ M, M + k ≤ N ∧ s'.Ok φ base Q M := by
  induction hr with
  | refl => exact ⟨N, Nat.le_refl _, ho⟩
  | step _ st ih =>
    obtain ⟨M, h1, h2⟩ := ih ho
    obtain ⟨M', h3, h4⟩ := st.ok h2
    exact ⟨M', by omega, h4⟩

/-- The outcome for all schedules, from one run of the caller. -/
theorem ends_of {base : Nat} {Q : α → Heap D → Prop} {m : Main D X B α} {N : Nat} (hm : m.wpn φ base Q N [] h) : Ends φ m h Q := by
  have h0 : (⟨h, m, []⟩ : Sys D X B α).Ok φ base Q N := ⟨[], 0, N, ⟨rfl, rfl⟩, Nat.le_refl _, hm⟩
  refine ⟨fun n s hr hb => ?_, fun n s hr => ?_, ⟨N, fun n s hr => ?_⟩, fun n s x hr hx => ?_, fun n s x hr hx => ?_⟩
  · obtain ⟨M, _, q, k, M', h1, _, h3⟩ := ok_runs hr h0
    rcases hb with ⟨e, hb⟩ | ⟨p, hp, hb⟩
    · rw [hb] at h3; exact h3
    · obtain ⟨i, hi⟩ := List.getElem?_of_mem hp
      obtain ⟨o, m, a, _⟩ := kidsOk_get h1 hi
      rcases a with ⟨_, a, _⟩ | ⟨pin, l, _, hk, a⟩
      · exact allOver_not_bad hb a
      · exact not_bad hk hb a
  · obtain ⟨M, _, q, k, M', h1, _, h3⟩ := ok_runs hr h0
    obtain ⟨hp, mn, ks⟩ := s
    cases mn with
    | ret x => exact .inl ⟨x, rfl⟩
    | stop e => exact h3.elim
    | read a k => obtain ⟨c, _, hc, _⟩ := h3; exact .inr ⟨_, .read hc⟩
    | write a c k => exact .inr ⟨_, .write⟩
    | alloc c k => exact .inr ⟨_, .alloc⟩
    | go g k => exact .inr ⟨_, .go⟩
    | recv i k =>
      have hl := kidsOk_length h1
      have hi : ∃ l, q[i]? = some l := by
        rcases h3 with ⟨_, b, l, _, d, _⟩ | ⟨_, _, d, _⟩ | ⟨_, d, _⟩ <;> exact ⟨_, d⟩
      obtain ⟨l, hi⟩ := hi
      have hlt : i < ks.length := by have := (List.getElem?_eq_some_iff.1 hi).1; simp only at hl; omega
      obtain ⟨o, m, a, _⟩ := kidsOk_get h1 (List.getElem?_eq_getElem hlt)
      have hp : (∃ ks', ks[i] = .mk .done ks') ∨ (∃ p', PStep φ hp ks[i] none p') ∨ ∃ b p', PStep φ hp ks[i] (some b) p' := by
        rcases a with ⟨_, a, _⟩ | ⟨pin, l, _, hk, a⟩
        · exact .inl (over_done a)
        · exact progress hk _ a
      rcases hp with ⟨ks', e⟩ | ⟨p', st⟩ | ⟨b, p', st⟩
      · exact .inr ⟨_, .closed (by rw [List.getElem?_eq_getElem hlt, e])⟩
      · exact .inr ⟨_, .kid (List.getElem?_eq_getElem hlt) st⟩
      · exact .inr ⟨_, .recv (List.getElem?_eq_getElem hlt) st⟩
  · obtain ⟨M, h1, _⟩ := ok_runs hr h0; omega
  · obtain ⟨M, _, q, k, M', h1, _, h3⟩ := ok_runs hr h0
    rw [hx] at h3; exact h3.2
  · obtain ⟨M, _, q, k, M', h1, _, h3⟩ := ok_runs hr h0
    rw [hx] at h3; exact kidsOk_over h1 h3.1

/-- The caller never writes below `base`. -/
theorem writes_of {base : Nat} {Q : α → Heap D → Prop} {m : Main D X B α} {N : Nat} (hm : m.wpn φ base Q N [] h) {n : Nat} {s : Sys D X B α}
    (hr : Spec.Runs (Step φ) n ⟨h, m, []⟩ s) {a : Addr} {c : Cell D} {k : Main D X B α} (hw : s.main = .write a c k) : base ≤ a := by
  obtain ⟨M, _, q, n, M', h1, _, h3⟩ := ok_runs hr (⟨[], 0, N, ⟨rfl, rfl⟩, Nat.le_refl _, hm⟩ : (⟨h, m, []⟩ : Sys D X B α).Ok φ base Q N)
  rw [hw] at h3
  exact h3.1

theorem Ends.mono {Q R : α → Heap D → Prop} {m : Main D X B α} (hm : Ends φ m h Q) (hQ : ∀ x h', Q x h' → R x h') : Ends φ m h R :=
  ⟨hm.noPanic, hm.noDeadlock, hm.terminates, fun n s x hr hx => hQ _ _ (hm.result n s x hr hx), hm.noLeak⟩

end Verif.Pipe
