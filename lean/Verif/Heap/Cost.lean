import Verif.Heap.Lift

/-!
# Cost of a call

The number of cells an execution reads or writes and the number of cells it allocates.  `Within` bounds both for all paths of a
program; `More` says that two programs differ only in the bound on their loops.
-/

namespace Verif.Heap
open Prog
variable {D E α β : Type}

namespace Prog

/-- Reads and writes of an execution.  Reading an unallocated address counts. -/
def accesses : Prog D α → Heap D → Nat
  | ret _, _ => 0
  | stop _, _ => 0
  | read a k, h =>
    match h.mem a with
    | some c => (k c).accesses h + 1
    | none => 1
  | write a c k, h => k.accesses (h.put a c) + 1
  | alloc c k, h => (k h.next).accesses (h.push c)

/-- Cells allocated by an execution. -/
def allocs : Prog D α → Heap D → Nat
  | ret _, _ => 0
  | stop _, _ => 0
  | read a k, h =>
    match h.mem a with
    | some c => (k c).allocs h
    | none => 0
  | write a c k, h => k.allocs (h.put a c)
  | alloc c k, h => (k h.next).allocs (h.push c) + 1

/-- No path of the program has more than `m` reads and writes or more than `n` allocations. -/
def Within : Prog D α → Nat → Nat → Prop
  | ret _, _, _ => True
  | stop _, _, _ => True
  | read _ k, m, n => 1 ≤ m ∧ ∀ c, (k c).Within (m - 1) n
  | write _ _ k, m, n => 1 ≤ m ∧ k.Within (m - 1) n
  | alloc _ k, m, n => 1 ≤ n ∧ ∀ a, (k a).Within m (n - 1)

theorem within_run {p : Prog D α} {m n : Nat} (hp : p.Within m n) (h : Heap D) : p.accesses h ≤ m ∧ p.allocs h ≤ n := by
  induction p generalizing m n h with
  | ret x => exact ⟨Nat.zero_le _, Nat.zero_le _⟩
  | stop e => exact ⟨Nat.zero_le _, Nat.zero_le _⟩
  | read a k ih =>
    simp only [accesses, allocs]
    cases e : h.mem a with
    | none => exact ⟨hp.1, Nat.zero_le _⟩
    | some c =>
      have := ih c (hp.2 c) h
      have := hp.1
      simp only
      omega
  | write a c k ih =>
    have := ih hp.2 (h.put a c)
    have := hp.1
    simp only [accesses, allocs]
    omega
  | alloc c k ih =>
    have := ih h.next (hp.2 _) (h.push c)
    have := hp.1
    simp only [accesses, allocs]
    omega

/-- The allocations are the growth of the memory. -/
theorem next_run {p : Prog D α} {h h' : Heap D} {x : α} (hr : p.run h = .ok (x, h')) : h'.next = h.next + p.allocs h := by
  induction p generalizing h with
  | ret y => simp only [run, Except.ok.injEq, Prod.mk.injEq] at hr; simp [allocs, hr.2]
  | stop e => simp [run] at hr
  | read a k ih =>
    simp only [run, allocs] at hr ⊢
    cases e : h.mem a with
    | none => simp [e] at hr
    | some c => simp only [e] at hr ⊢; exact ih c hr
  | write a c k ih => exact ih hr
  | alloc c k ih =>
    have := ih h.next hr
    simp only [allocs, Heap.push] at this ⊢
    omega

theorem Within.mono {p : Prog D α} {m n m' n' : Nat} (hp : p.Within m n) (hm : m ≤ m') (hn : n ≤ n') : p.Within m' n' := by
  induction p generalizing m n m' n' with
  | ret x => trivial
  | stop e => trivial
  | read a k ih => exact ⟨by have := hp.1; omega, fun c => ih c (hp.2 c) (by omega) hn⟩
  | write a c k ih => exact ⟨by have := hp.1; omega, ih hp.2 (by omega) hn⟩
  | alloc c k ih => exact ⟨by have := hp.1; omega, fun a => ih a (hp.2 a) hm (by omega)⟩

theorem within_bind {p : Prog D α} {f : α → Prog D β} {m n m' n' : Nat} (hp : p.Within m n) (hf : ∀ x, (f x).Within m' n') :
    (p >>= f).Within (m + m') (n + n') := by
  show (p.bind f).Within _ _
  induction p generalizing m n with
  | ret x => exact (hf x).mono (by omega) (by omega)
  | stop e => trivial
  | read a k ih => exact ⟨by have := hp.1; omega, fun c => (ih c (hp.2 c)).mono (by have := hp.1; omega) (by omega)⟩
  | write a c k ih => exact ⟨by have := hp.1; omega, (ih hp.2).mono (by have := hp.1; omega) (by omega)⟩
  | alloc c k ih => exact ⟨by have := hp.1; omega, fun a => (ih a (hp.2 a)).mono (by omega) (by have := hp.1; omega)⟩

/-- `within_bind` for a given total. -/
theorem within_seq {p : Prog D α} {f : α → Prog D β} {m n M N : Nat} (hp : p.Within m n) (hm : m ≤ M) (hn : n ≤ N)
    (hf : ∀ x, (f x).Within (M - m) (N - n)) : (p >>= f).Within M N :=
  (within_bind hp hf).mono (by omega) (by omega)

theorem within_pure (x : α) (m n : Nat) : (pure x : Prog D α).Within m n := trivial
theorem within_pure_bind {x : α} {f : α → Prog D β} {m n : Nat} (h : (f x).Within m n) : (pure x >>= f).Within m n := h
theorem within_stop (e : Err) (m n : Nat) : (stop e : Prog D α).Within m n := trivial
theorem within_load (p : Ptr) : (load p : Prog D _).Within 1 0 := by
  cases p with
  | none => trivial
  | some a => exact ⟨Nat.le_refl _, fun _ => trivial⟩
theorem within_upd (p : Ptr) (f : Cell D → Cell D) : (upd p f).Within 2 0 := by
  cases p with
  | none => trivial
  | some a => exact ⟨by decide, fun _ => ⟨by decide, trivial⟩⟩
theorem within_new (c : Cell D) : (new c).Within 0 1 := ⟨Nat.le_refl _, fun _ => trivial⟩
theorem within_ifNotNil {p : Ptr} {x : α} {k : Prog D α} {m n : Nat} (hk : k.Within m n) : (ifNotNil p x k).Within m n := by
  unfold ifNotNil; split
  · exact hk
  · trivial
theorem within_ite {c : Prop} [Decidable c] {p q : Prog D α} {m n : Nat} (hp : c → p.Within m n) (hq : ¬ c → q.Within m n) :
    (if c then p else q).Within m n := by
  split
  · exact hp ‹_›
  · exact hq ‹_›

theorem within_lift (K : Kind D E) {p : Prog D α} {m n : Nat} (hp : p.Within m n) : (p.lift K).Within m n := by
  induction p generalizing m n with
  | ret x => trivial
  | stop e => trivial
  | read a k ih =>
    simp only [Prog.lift, Within]
    refine ⟨hp.1, fun c => ?_⟩
    cases e : K.cell c with
    | none => trivial
    | some d => exact ih d (hp.2 d)
  | write a c k ih => exact ⟨hp.1, ih hp.2⟩
  | alloc c k ih => exact ⟨hp.1, fun a => ih a (hp.2 a)⟩

/-- Every value a path of the program returns satisfies `P`. -/
def Returns (P : α → Prop) : Prog D α → Prop
  | ret x => P x
  | stop _ => True
  | read _ k => ∀ c, (k c).Returns P
  | write _ _ k => k.Returns P
  | alloc _ k => ∀ a, (k a).Returns P

theorem returns_true (p : Prog D α) : p.Returns fun _ => True := by
  induction p with
  | ret x => trivial
  | stop e => trivial
  | read a k ih => exact ih
  | write a c k ih => exact ih
  | alloc c k ih => exact ih

theorem returns_bind {P : α → Prop} {Q : β → Prop} {p : Prog D α} {f : α → Prog D β} (hp : p.Returns P) (hf : ∀ x, P x → (f x).Returns Q) :
    (p >>= f).Returns Q := by
  show (p.bind f).Returns Q
  induction p with
  | ret x => exact hf x hp
  | stop e => trivial
  | read a k ih => exact fun c => ih c (hp c)
  | write a c k ih => exact ih hp
  | alloc c k ih => exact fun a => ih a (hp a)

theorem returns_mono {P Q : α → Prop} {p : Prog D α} (hp : p.Returns P) (h : ∀ x, P x → Q x) : p.Returns Q := by
  induction p with
  | ret x => exact h x hp
  | stop e => trivial
  | read a k ih => exact fun c => ih c (hp c)
  | write a c k ih => exact ih hp
  | alloc c k ih => exact fun a => ih a (hp a)

/-- `within_seq` using what the first part returns. -/
theorem within_seq' {P : α → Prop} {p : Prog D α} {f : α → Prog D β} {m n M N : Nat} (hr : p.Returns P) (hp : p.Within m n) (hm : m ≤ M) (hn : n ≤ N)
    (hf : ∀ x, P x → (f x).Within (M - m) (N - n)) : (p >>= f).Within M N := by
  show (p.bind f).Within M N
  induction p generalizing m n M N with
  | ret x => exact (hf x hr).mono (by omega) (by omega)
  | stop e => trivial
  | read a k ih =>
    have h1 := hp.1
    exact ⟨by omega, fun c => ih c (hr c) (hp.2 c) (by omega) hn fun x hx => (hf x hx).mono (by omega) (by omega)⟩
  | write a c k ih =>
    have h1 := hp.1
    exact ⟨by omega, ih hr hp.2 (by omega) hn fun x hx => (hf x hx).mono (by omega) (by omega)⟩
  | alloc c k ih =>
    have h1 := hp.1
    exact ⟨by omega, fun a => ih a (hr a) (hp.2 a) hm (by omega) fun x hx => (hf x hx).mono (by omega) (by omega)⟩

/-! ## Loop bounds -/

/-- `q` does what `p` does, and may go on where `p` stops because its loop bound is used up. -/
inductive More : Prog D α → Prog D α → Prop where
  | fuel (q) : More (stop .fuel) q
  | panic : More (stop .panic) (stop .panic)
  | ret (x) : More (ret x) (ret x)
  | read (a) {k k'} (h : ∀ c, More (k c) (k' c)) : More (read a k) (read a k')
  | write (a c) {k k'} (h : More k k') : More (write a c k) (write a c k')
  | alloc (c) {k k'} (h : ∀ a, More (k a) (k' a)) : More (alloc c k) (alloc c k')

theorem More.refl (p : Prog D α) : More p p := by
  induction p with
  | ret x => exact .ret x
  | stop e =>
    cases e with
    | panic => exact .panic
    | fuel => exact .fuel _
  | read a k ih => exact .read a ih
  | write a c k ih => exact .write a c ih
  | alloc c k ih => exact .alloc c ih

theorem More.bind' {p q : Prog D α} {f g : α → Prog D β} (h : More p q) (hf : ∀ x, More (f x) (g x)) : More (p.bind f) (q.bind g) := by
  induction h with
  | fuel q => exact .fuel _
  | panic => exact .panic
  | ret x => exact hf x
  | read a _ ih => exact .read a ih
  | write a c _ ih => exact .write a c ih
  | alloc c _ ih => exact .alloc c ih

theorem More.bind {p q : Prog D α} {f g : α → Prog D β} (h : More p q) (hf : ∀ x, More (f x) (g x)) : More (p >>= f) (q >>= g) :=
  More.bind' h hf

theorem More.next {p : Prog D α} {f g : α → Prog D β} (hf : ∀ x, More (f x) (g x)) : More (p >>= f) (p >>= g) :=
  More.bind' (.refl p) hf

theorem More.pure_bind {x : α} {f g : α → Prog D β} (h : More (f x) (g x)) : More (pure x >>= f) (pure x >>= g) := h

theorem More.ite {c : Prop} [Decidable c] {p q p' q' : Prog D α} (h1 : c → More p p') (h2 : ¬ c → More q q') :
    More (if c then p else q) (if c then p' else q') := by
  split
  · exact h1 ‹_›
  · exact h2 ‹_›

theorem More.ifNotNil {p : Ptr} {x : α} {k k' : Prog D α} (h : More k k') : More (Prog.ifNotNil p x k) (Prog.ifNotNil p x k') :=
  .ite (fun _ => h) fun _ => .refl _

theorem More.lift (K : Kind D E) {p q : Prog D α} (h : More p q) : More (p.lift K) (q.lift K) := by
  induction h with
  | fuel q => exact .fuel _
  | panic => exact .panic
  | ret x => exact .ret x
  | read a _ ih =>
    simp only [Prog.lift]
    refine .read a fun c => ?_
    cases e : K.cell c with
    | none => exact .panic
    | some d => exact ih d
  | write a c _ ih => exact .write a _ ih
  | alloc c _ ih => exact .alloc _ ih

theorem More.run {p q : Prog D α} (hm : More p q) {h : Heap D} (hp : p.run h ≠ .error .fuel) :
    q.run h = p.run h ∧ q.accesses h = p.accesses h ∧ q.allocs h = p.allocs h := by
  induction hm generalizing h with
  | fuel q => exact absurd rfl hp
  | panic => exact ⟨rfl, rfl, rfl⟩
  | ret x => exact ⟨rfl, rfl, rfl⟩
  | read a _ ih =>
    simp only [Prog.run, accesses, allocs] at hp ⊢
    cases e : h.mem a with
    | none => exact ⟨rfl, rfl, rfl⟩
    | some c =>
      simp only [e] at hp ⊢
      obtain ⟨h1, h2, h3⟩ := ih c hp
      exact ⟨h1, by rw [h2], h3⟩
  | write a c _ ih =>
    obtain ⟨h1, h2, h3⟩ := ih (h := h.put a c) hp
    exact ⟨h1, by simp only [accesses, h2], h3⟩
  | alloc c _ ih =>
    obtain ⟨h1, h2, h3⟩ := ih h.next (h := h.push c) hp
    exact ⟨h1, h2, by simp only [allocs, h3]⟩

/-- The execution in this memory has at most `m` reads and writes and at most `n` allocations. -/
def Cost (p : Prog D α) (h : Heap D) (m n : Nat) : Prop := p.accesses h ≤ m ∧ p.allocs h ≤ n

theorem Within.cost {p : Prog D α} {m n : Nat} (hp : p.Within m n) (h : Heap D) : Cost p h m n := within_run hp h

theorem Cost.mono {p : Prog D α} {h : Heap D} {m n m' n' : Nat} (hp : Cost p h m n) (hm : m ≤ m') (hn : n ≤ n') : Cost p h m' n' :=
  ⟨Nat.le_trans hp.1 hm, Nat.le_trans hp.2 hn⟩

theorem Cost.bind {W : Nat → Prop} {p : Prog D α} {f : α → Prog D β} {h : Heap D} {m n m' n' : Nat} (hp : Cost p h m n)
    (hf : wp W p (fun x h' => Cost (f x) h' m' n') h) : Cost (p >>= f) h (m + m') (n + n') := by
  show Cost (p.bind f) h _ _
  unfold Cost at hp ⊢
  induction p generalizing h m n with
  | ret x => exact ⟨Nat.le_trans hf.1 (by omega), Nat.le_trans hf.2 (by omega)⟩
  | stop e => exact hf.elim
  | read a k ih =>
    obtain ⟨c, hc, hf⟩ := hf
    simp only [Prog.bind, accesses, allocs, hc] at hp ⊢
    have := ih c (m := m - 1) (n := n) (by omega) hf
    omega
  | write a c k ih =>
    simp only [Prog.bind, accesses, allocs] at hp ⊢
    have := ih (m := m - 1) (n := n) (h := h.put a c) (by omega) hf.2.2
    omega
  | alloc c k ih =>
    simp only [Prog.bind, accesses, allocs] at hp ⊢
    have := ih h.next (m := m) (n := n - 1) (h := h.push c) (by omega) hf
    omega

theorem Cost.lift (K : Kind D E) {p : Prog D α} {h : Heap E} {m n : Nat} (hp : Cost p (K.view h) m n) : Cost (p.lift K) h m n := by
  unfold Cost at hp ⊢
  induction p generalizing h m n with
  | ret x => exact hp
  | stop e => exact hp
  | read a k ih =>
    simp only [Prog.lift, accesses, allocs] at hp ⊢
    cases e : h.mem a with
    | none =>
      have : (K.view h).mem a = none := by simp [Kind.view, e]
      simp only [this] at hp
      exact hp
    | some c =>
      cases e2 : K.cell c with
      | none =>
        have : (K.view h).mem a = none := by simp [Kind.view, e, e2]
        simp only [this] at hp
        simp only [e2, accesses, allocs]
        exact hp
      | some d =>
        have : (K.view h).mem a = some d := by simp [Kind.view, e, e2]
        simp only [this] at hp
        simp only [e2]
        have := ih d (m := m - 1) (n := n) (h := h) (by omega)
        omega
  | write a c k ih =>
    simp only [Prog.lift, accesses, allocs] at hp ⊢
    rw [← K.view_put] at hp
    have := ih (m := m - 1) (n := n) (h := h.put a (c.map K.inj)) (by omega)
    omega
  | alloc c k ih =>
    simp only [Prog.lift, accesses, allocs] at hp ⊢
    rw [← K.view_push] at hp
    have := ih h.next (m := m) (n := n - 1) (h := h.push (c.map K.inj)) (by simp only [Kind.view_next] at hp; omega)
    omega

/-- A call that ends within a small loop bound costs no more with a larger one. -/
theorem cost_of {W : Nat → Prop} {p q : Prog D α} {Q : α → Heap D → Prop} {h : Heap D} {m n : Nat} (hp : wp W p Q h) (hw : p.Within m n)
    (hm : More p q) : Cost q h m n := by
  obtain ⟨x, h', e, _⟩ := wp_run hp
  obtain ⟨_, h2, h3⟩ := hm.run (h := h) (by rw [e]; simp)
  unfold Cost
  rw [h2, h3]
  exact within_run hw h

end Prog

/-- A call in a program, bounded by `t`. -/
scoped syntax "within1 " term : tactic
macro_rules
  | `(tactic| within1 $t) => `(tactic| first
    | refine Prog.within_seq ($t ..) (by omega) (by omega) fun _ => ?_
    | exact Prog.Within.mono ($t ..) (by omega) (by omega)
    | refine Prog.within_seq (Prog.within_ifNotNil ($t ..)) (by omega) (by omega) fun _ => ?_
    | exact Prog.Within.mono (Prog.within_ifNotNil ($t ..)) (by omega) (by omega)
    | refine Prog.within_seq (Prog.within_lift _ ($t ..)) (by omega) (by omega) fun _ => ?_
    | exact Prog.Within.mono (Prog.within_lift _ ($t ..)) (by omega) (by omega))

/-- `within [t, …]` follows a program statement by statement; the `t` bound the calls in it. -/
scoped syntax "within" "[" term,* "]" : tactic
macro_rules
  | `(tactic| within [$ts,*]) => do
    let ts := ts.getElems
    `(tactic| repeat' first
      | exact Prog.within_pure _ _ _
      | exact Prog.within_stop _ _ _
      | with_reducible refine Prog.within_pure_bind ?_
      | (with_reducible apply Prog.within_ite <;> intro _)
      $[| within1 $ts]*
      | within1 Prog.within_load
      | within1 Prog.within_upd
      | within1 Prog.within_new
      | split)

/-- A call in two programs, related by `t`. -/
scoped syntax "more1 " term : tactic
macro_rules
  | `(tactic| more1 $t) => `(tactic| first
    | (apply $t; done)
    | refine Prog.More.bind (by apply $t) fun _ => ?_
    | exact Prog.More.ifNotNil (by apply $t)
    | refine Prog.More.bind (Prog.More.ifNotNil (by apply $t)) fun _ => ?_
    | exact Prog.More.lift _ (by apply $t)
    | refine Prog.More.bind (Prog.More.lift _ (by apply $t)) fun _ => ?_)

/-- `more [t, …]` follows two programs statement by statement; the `t` relate the calls in them. -/
scoped syntax "more" "[" term,* "]" : tactic
macro_rules
  | `(tactic| more [$ts,*]) => do
    let ts := ts.getElems
    `(tactic| repeat' first
      | with_reducible exact Prog.More.refl _
      | (apply Prog.More.ite <;> intro _)
      $[| more1 $ts]*
      | refine Prog.More.next fun _ => ?_
      | split)

end Verif.Heap
