import Verif.Pipe.Rescue

/-!
# Calls whose callback asks questions

A caller that from time to time runs a program which only reads (a callback asking questions) is compared with callers that do not ask and get the results of these programs
from a list.  Where the list ends, such a caller writes nothing any more, so the memory it ends with is the one the questions are asked in.
-/

namespace Verif.Pipe
open Verif Verif.Heap Verif.Heap.Prog

variable {D X B τ ε : Type} {φ : Cell D → X}

/-- The program reads, makes `r` reads in memory `h`, and gives `e`. -/
inductive Peeks (h : Heap D) : Prog D ε → ε → Nat → Prop where
  | ret {e : ε} : Peeks h (.ret e) e 0
  | read {a : Addr} {c : Cell D} {k : Cell D → Prog D ε} {e : ε} {r : Nat} : h.mem a = some c → Peeks h (k c) e r → Peeks h (.read a k) e (r + 1)

/-- `m` with the results `t` so far beside the callers `F t'` that get the results from a list `t'`; `b` bounds the number of questionings to come.  `A t p x`: questioning `p` is the one to come
after the results `t` if the caller with this list ends with `x`. -/
inductive Main.Asking (A : List ε → Prog D ε → τ → Prop) (Fin : List ε → τ → Prop) : Nat → Main D X B (List ε) → (List ε → Main D X B τ) → List ε → Prop where
  | ret {b : Nat} {F : List ε → Main D X B τ} {t : List ε} {x : τ} : (∀ t', t <+: t' → F t' = .ret x) → Fin t x → Main.Asking A Fin b (.ret t) F t
  | stop {b : Nat} {F : List ε → Main D X B τ} {t : List ε} {e : Err} : (∀ t', t <+: t' → F t' = .stop e) → Main.Asking A Fin b (.stop e) F t
  | read {b : Nat} {F : List ε → Main D X B τ} {t : List ε} {a : Addr} {k : Cell D → Main D X B (List ε)} {k' : List ε → Cell D → Main D X B τ} :
      (∀ t', t <+: t' → F t' = .read a (k' t')) → (∀ c, Main.Asking A Fin b (k c) (fun t' => k' t' c) t) → Main.Asking A Fin b (.read a k) F t
  | write {b : Nat} {F : List ε → Main D X B τ} {t : List ε} {a : Addr} {c : Cell D} {k : Main D X B (List ε)} {k' : List ε → Main D X B τ} :
      (∀ t', t <+: t' → F t' = .write a c (k' t')) → Main.Asking A Fin b k k' t → Main.Asking A Fin b (.write a c k) F t
  | alloc {b : Nat} {F : List ε → Main D X B τ} {t : List ε} {c : Cell D} {k : Addr → Main D X B (List ε)} {k' : List ε → Addr → Main D X B τ} :
      (∀ t', t <+: t' → F t' = .alloc c (k' t')) → (∀ a, Main.Asking A Fin b (k a) (fun t' => k' t' a) t) → Main.Asking A Fin b (.alloc c k) F t
  | go {b : Nat} {F : List ε → Main D X B τ} {t : List ε} {g : Gen X B} {k : Nat → Main D X B (List ε)} {k' : List ε → Nat → Main D X B τ} :
      (∀ t', t <+: t' → F t' = .go g (k' t')) → (∀ i, Main.Asking A Fin b (k i) (fun t' => k' t' i) t) → Main.Asking A Fin b (.go g k) F t
  | recv {b : Nat} {F : List ε → Main D X B τ} {t : List ε} {i : Nat} {k : Option B → Main D X B (List ε)} {k' : List ε → Option B → Main D X B τ} :
      (∀ t', t <+: t' → F t' = .recv i (k' t')) → (∀ o, Main.Asking A Fin b (k o) (fun t' => k' t' o) t) → Main.Asking A Fin b (.recv i k) F t
  | ask {b : Nat} {F : List ε → Main D X B τ} {t : List ε} {p : Prog D ε} {k : ε → Main D X B (List ε)} :
      (F t).Idle (A t p) → (∀ e, (∃ h r, Peeks h p e r) → Main.Asking A Fin b (k e) F (t ++ [e])) → Main.Asking A Fin (b + 1) (.prog p k) F t

section
variable {A : List ε → Prog D ε → τ → Prop} {Fin : List ε → τ → Prop}

theorem Main.Asking.congr {b : Nat} {m : Main D X B (List ε)} {F G : List ε → Main D X B τ} {t : List ε} (ha : m.Asking A Fin b F t) (e : ∀ t', t <+: t' → G t' = F t') :
    m.Asking A Fin b G t := by
  induction ha generalizing G with
  | ret h f => exact .ret (fun t' ht => (e t' ht).trans (h t' ht)) f
  | stop h => exact .stop fun t' ht => (e t' ht).trans (h t' ht)
  | read h hk _ => exact .read (fun t' ht => (e t' ht).trans (h t' ht)) hk
  | write h hk _ => exact .write (fun t' ht => (e t' ht).trans (h t' ht)) hk
  | alloc h hk _ => exact .alloc (fun t' ht => (e t' ht).trans (h t' ht)) hk
  | go h hk _ => exact .go (fun t' ht => (e t' ht).trans (h t' ht)) hk
  | recv h hk _ => exact .recv (fun t' ht => (e t' ht).trans (h t' ht)) hk
  | ask hi hk ih => exact .ask (e _ (List.prefix_refl _) ▸ hi) fun x hx => ih x hx fun t' ht => e t' ((List.prefix_append _ _).trans ht)

theorem Main.Asking.mono {b : Nat} {m : Main D X B (List ε)} {F : List ε → Main D X B τ} {t : List ε} (ha : m.Asking A Fin b F t) : ∀ {b' : Nat}, b ≤ b' → m.Asking A Fin b' F t := by
  induction ha with
  | ret h f => exact fun _ => .ret h f
  | stop h => exact fun _ => .stop h
  | read h _ ih => exact fun hb => .read h fun c => ih c hb
  | write h _ ih => exact fun hb => .write h (ih hb)
  | alloc h _ ih => exact fun hb => .alloc h fun c => ih c hb
  | go h _ ih => exact fun hb => .go h fun c => ih c hb
  | recv h _ ih => exact fun hb => .recv h fun c => ih c hb
  | ask hi _ ih =>
    intro b' hb
    obtain ⟨b', rfl⟩ : ∃ c, b' = c + 1 := ⟨b' - 1, by omega⟩
    exact .ask hi fun x hx => ih x hx (by omega)

/-- A program that both run. -/
theorem Main.Asking.after {β : Type} {b : Nat} {t : List ε} (p : Prog D β) {k : β → Main D X B (List ε)} {k' : List ε → β → Main D X B τ}
    (hk : ∀ y, (k y).Asking A Fin b (fun t' => k' t' y) t) : (Main.prog p k).Asking A Fin b (fun t' => Main.prog p (k' t')) t := by
  induction p with
  | ret y => exact hk y
  | stop e => exact .stop fun _ _ => rfl
  | read a c ih => exact .read (fun _ _ => rfl) ih
  | write a c q ih => exact .write (fun _ _ => rfl) ih
  | alloc c q ih => exact .alloc (fun _ _ => rfl) ih

/-! ## Runs -/

/-- The results to come, `b` of them. -/
def extAsk (nxt : List ε → ε) : Nat → List ε → List ε
  | 0, t => t
  | b + 1, t => extAsk nxt b (t ++ [nxt t])

/-- The reads to come. -/
def remAsk (nxt : List ε → ε) (cost : List ε → Nat) : Nat → List ε → Nat
  | 0, _ => 0
  | b + 1, t => cost t + remAsk nxt cost b (t ++ [nxt t])

theorem extAsk_prefix (nxt : List ε → ε) (b : Nat) (t : List ε) : t <+: extAsk nxt b t := by
  induction b generalizing t with
  | zero => exact List.prefix_refl _
  | succ b ih => exact (List.prefix_append _ _).trans (ih _)

/-- Every result is the one that follows from those before, which are as `G` says. -/
def Unrolled (G : List ε → Prop) (nxt : List ε → ε) (t : List ε) : Prop := ∀ i, i < t.length → t[i]? = some (nxt (t.take i)) ∧ G (t.take i)

theorem Unrolled.snoc {G : List ε → Prop} {nxt : List ε → ε} {t : List ε} (h : Unrolled G nxt t) (g : G t) : Unrolled G nxt (t ++ [nxt t]) := by
  intro i hi
  simp only [List.length_append, List.length_singleton] at hi
  by_cases k : i < t.length
  · rw [List.getElem?_append_left k, List.take_append_of_le_length (by omega)]
    exact h i k
  · obtain rfl : i = t.length := by omega
    simpa using g

/-- The caller between two questionings, or in one. -/
inductive Between (A : List ε → Prog D ε → τ → Prop) (Fin : List ε → τ → Prop) (H : List ε → Heap D) (G : List ε → Prop) (nxt : List ε → ε) (cost : List ε → Nat) (T : List ε) :
    Heap D → Main D X B (List ε) → (List ε → Main D X B τ) → List ε → Nat → Prop where
  | ret {h : Heap D} {F : List ε → Main D X B τ} {t : List ε} {x : τ} {c : Nat} : (∀ t', t <+: t' → F t' = .ret x) → Fin t x → Between A Fin H G nxt cost T h (.ret t) F t c
  | read {h : Heap D} {b : Nat} {F : List ε → Main D X B τ} {t : List ε} {a : Addr} {k : Cell D → Main D X B (List ε)} {k' : List ε → Cell D → Main D X B τ} :
      (∀ t', t <+: t' → F t' = .read a (k' t')) → (∀ c, (k c).Asking A Fin b (fun t' => k' t' c) t) → extAsk nxt b t <+: T →
      Between A Fin H G nxt cost T h (.read a k) F t (remAsk nxt cost b t)
  | write {h : Heap D} {b : Nat} {F : List ε → Main D X B τ} {t : List ε} {a : Addr} {c : Cell D} {k : Main D X B (List ε)} {k' : List ε → Main D X B τ} :
      (∀ t', t <+: t' → F t' = .write a c (k' t')) → k.Asking A Fin b k' t → extAsk nxt b t <+: T → Between A Fin H G nxt cost T h (.write a c k) F t (remAsk nxt cost b t)
  | alloc {h : Heap D} {b : Nat} {F : List ε → Main D X B τ} {t : List ε} {c : Cell D} {k : Addr → Main D X B (List ε)} {k' : List ε → Addr → Main D X B τ} :
      (∀ t', t <+: t' → F t' = .alloc c (k' t')) → (∀ a, (k a).Asking A Fin b (fun t' => k' t' a) t) → extAsk nxt b t <+: T →
      Between A Fin H G nxt cost T h (.alloc c k) F t (remAsk nxt cost b t)
  | go {h : Heap D} {b : Nat} {F : List ε → Main D X B τ} {t : List ε} {g : Gen X B} {k : Nat → Main D X B (List ε)} {k' : List ε → Nat → Main D X B τ} :
      (∀ t', t <+: t' → F t' = .go g (k' t')) → (∀ i, (k i).Asking A Fin b (fun t' => k' t' i) t) → extAsk nxt b t <+: T →
      Between A Fin H G nxt cost T h (.go g k) F t (remAsk nxt cost b t)
  | recv {h : Heap D} {b : Nat} {F : List ε → Main D X B τ} {t : List ε} {i : Nat} {k : Option B → Main D X B (List ε)} {k' : List ε → Option B → Main D X B τ} :
      (∀ t', t <+: t' → F t' = .recv i (k' t')) → (∀ o, (k o).Asking A Fin b (fun t' => k' t' o) t) → extAsk nxt b t <+: T →
      Between A Fin H G nxt cost T h (.recv i k) F t (remAsk nxt cost b t)
  | amid {b r : Nat} {F : List ε → Main D X B τ} {t : List ε} {a : Addr} {c : Cell D} {p : Cell D → Prog D ε} {k : ε → Main D X B (List ε)} :
      G t → (H t).mem a = some c → Peeks (H t) (p c) (nxt t) r → (k (nxt t)).Asking A Fin b F (t ++ [nxt t]) → extAsk nxt b (t ++ [nxt t]) <+: T →
      Between A Fin H G nxt cost T (H t) (.read a fun c => .prog (p c) k) F t (r + 1 + remAsk nxt cost b (t ++ [nxt t]))

variable {G : List ε → Prop} {H : List ε → Heap D} {X' : List ε → τ} {nxt : List ε → ε} {cost : List ε → Nat} {T : List ε} {F0 : List ε → Main D X B τ} {h0 : Heap D}

/-- The callers with lists are at the same point. -/
def AllAt (φ : Cell D → X) (F0 : List ε → Main D X B τ) (h0 : Heap D) (T : List ε) (h : Heap D) (F : List ε → Main D X B τ) (ks : List (Proc X B)) (t : List ε) : Prop :=
  ∀ t', t <+: t' → t' <+: T → ∃ n, Spec.Runs (Step φ) n ⟨h0, F0 t', []⟩ ⟨h, F t', ks⟩

theorem AllAt.more {h : Heap D} {F : List ε → Main D X B τ} {ks : List (Proc X B)} {t t1 : List ε} (h1 : AllAt φ F0 h0 T h F ks t) (ht : t <+: t1) : AllAt φ F0 h0 T h F ks t1 :=
  fun t' a b => h1 t' (ht.trans a) b

/-- Questionings without reads are skipped. -/
theorem between_of (hE : ∀ t, Ends φ (F0 t) h0 fun x h => x = X' t ∧ h = H t) (hA : ∀ t p, A t p (X' t) → G t ∧ ∃ r, r ≤ cost t ∧ Peeks (H t) p (nxt t) r)
    {b : Nat} {m : Main D X B (List ε)} {F : List ε → Main D X B τ} {t : List ε} (ha : m.Asking A Fin b F t) {h : Heap D} {ks : List (Proc X B)}
    (hr : AllAt φ F0 h0 T h F ks t) (hT : extAsk nxt b t <+: T) (hU : Unrolled G nxt t) :
    ∃ t1 c, t <+: t1 ∧ t1 <+: T ∧ Unrolled G nxt t1 ∧ c ≤ remAsk nxt cost b t ∧ Between A Fin H G nxt cost T h m F t1 c := by
  have hp := (extAsk_prefix nxt b t).trans hT
  induction ha with
  | ret e f => exact ⟨_, 0, List.prefix_refl _, hp, hU, Nat.zero_le _, .ret e f⟩
  | stop e =>
    obtain ⟨n, hn⟩ := hr _ (List.prefix_refl _) hp
    rw [e _ (List.prefix_refl _)] at hn
    exact ((hE _).noPanic _ _ hn (.inl ⟨_, rfl⟩)).elim
  | read e hk _ => exact ⟨_, _, List.prefix_refl _, hp, hU, Nat.le_refl _, .read e hk hT⟩
  | write e hk _ => exact ⟨_, _, List.prefix_refl _, hp, hU, Nat.le_refl _, .write e hk hT⟩
  | alloc e hk _ => exact ⟨_, _, List.prefix_refl _, hp, hU, Nat.le_refl _, .alloc e hk hT⟩
  | go e hk _ => exact ⟨_, _, List.prefix_refl _, hp, hU, Nat.le_refl _, .go e hk hT⟩
  | recv e hk _ => exact ⟨_, _, List.prefix_refl _, hp, hU, Nat.le_refl _, .recv e hk hT⟩
  | @ask b F t p k hi hk ih =>
    obtain ⟨n, hn⟩ := hr _ (List.prefix_refl _) hp
    obtain ⟨d, rfl⟩ := Main.Idle.end (hE t) hn hi
    obtain ⟨g, r, hrc, hP⟩ := hA _ _ d
    have hx : ∃ h r, Peeks h p (nxt t) r := ⟨_, r, hP⟩
    cases hP with
    | ret =>
      obtain ⟨t1, c, i1, i2, i3, i4, i5⟩ := ih _ hx (hr.more (List.prefix_append _ _)) hT (hU.snoc g) ((extAsk_prefix nxt b _).trans hT)
      exact ⟨t1, c, (List.prefix_append _ _).trans i1, i2, i3, Nat.le_trans i4 (Nat.le_add_left _ _), i5⟩
    | read hc hP' =>
      refine ⟨t, _, List.prefix_refl _, hp, hU, ?_, .amid g hc hP' (hk _ hx) hT⟩
      simp only [remAsk]
      omega

/-- The state of the asking caller after `n` steps. -/
def AskInv (φ : Cell D → X) (A : List ε → Prog D ε → τ → Prop) (Fin : List ε → τ → Prop) (H : List ε → Heap D) (G : List ε → Prop) (nxt : List ε → ε) (cost : List ε → Nat) (T : List ε) (F0 : List ε → Main D X B τ)
    (h0 : Heap D) (C n : Nat) (s : Sys D X B (List ε)) : Prop :=
  ∃ F t c n', Between A Fin H G nxt cost T s.heap s.main F t c ∧ t <+: T ∧ Unrolled G nxt t ∧ AllAt φ F0 h0 T s.heap F s.kids t ∧ Spec.Runs (Step φ) n' ⟨h0, F0 T, []⟩ ⟨s.heap, F T, s.kids⟩ ∧ n + c ≤ n' + C

theorem askInv_of (hE : ∀ t, Ends φ (F0 t) h0 fun x h => x = X' t ∧ h = H t) (hA : ∀ t p, A t p (X' t) → G t ∧ ∃ r, r ≤ cost t ∧ Peeks (H t) p (nxt t) r)
    {b : Nat} {m : Main D X B (List ε)} {F : List ε → Main D X B τ} {t : List ε} (ha : m.Asking A Fin b F t) {h : Heap D} {ks : List (Proc X B)}
    (hr : AllAt φ F0 h0 T h F ks t) (hT : extAsk nxt b t <+: T) (hU : Unrolled G nxt t) {C n n' : Nat} (hn : Spec.Runs (Step φ) n' ⟨h0, F0 T, []⟩ ⟨h, F T, ks⟩)
    (hc : n + remAsk nxt cost b t ≤ n' + C) : AskInv φ A Fin H G nxt cost T F0 h0 C n ⟨h, m, ks⟩ := by
  obtain ⟨t1, c, i1, i2, i3, i4, i5⟩ := between_of hE hA ha hr hT hU
  exact ⟨F, t1, c, n', i5, i2, i3, hr.more i1, hn, by omega⟩

theorem askInv_step (hE : ∀ t, Ends φ (F0 t) h0 fun x h => x = X' t ∧ h = H t) (hA : ∀ t p, A t p (X' t) → G t ∧ ∃ r, r ≤ cost t ∧ Peeks (H t) p (nxt t) r)
    {C n : Nat} {s s' : Sys D X B (List ε)} (hi : AskInv φ A Fin H G nxt cost T F0 h0 C n s) (st : Step φ s s') : AskInv φ A Fin H G nxt cost T F0 h0 C (n + 1) s' := by
  obtain ⟨h, m, ks⟩ := s
  obtain ⟨F, t, c, n', hb, hp, hU, hr, hn, hc⟩ := hi
  simp only at hb hr hn
  -- a step that all make
  have same : ∀ {b : Nat} {h' : Heap D} {m' : Main D X B (List ε)} {ks' : List (Proc X B)} {F' : List ε → Main D X B τ}, (∀ t', t <+: t' → Step φ ⟨h, F t', ks⟩ ⟨h', F' t', ks'⟩) →
      m'.Asking A Fin b F' t → extAsk nxt b t <+: T → c = remAsk nxt cost b t → AskInv φ A Fin H G nxt cost T F0 h0 C (n + 1) ⟨h', m', ks'⟩ := by
    intro b h' m' ks' F' hs ha hT e
    refine askInv_of hE hA ha (fun t' h1 h2 => ?_) hT hU (hn.step (hs T hp)) (by omega)
    obtain ⟨j, hj⟩ := hr t' h1 h2
    exact ⟨j + 1, hj.step (hs t' h1)⟩
  have kid : ∀ {i : Nat} {q q' : Proc X B}, ks[i]? = some q → PStep φ h q none q' → AskInv φ A Fin H G nxt cost T F0 h0 C (n + 1) ⟨h, m, ks.set i q'⟩ := by
    intro i q q' hi hq
    refine ⟨F, t, c, n' + 1, hb, hp, hU, fun t' h1 h2 => ?_, hn.step (.kid hi hq), by omega⟩
    obtain ⟨j, hj⟩ := hr t' h1 h2
    exact ⟨j + 1, hj.step (.kid hi hq)⟩
  cases hb with
  | ret e f =>
    cases st with
    | kid hi hq => exact kid hi hq
  | read e hk hT =>
    cases st with
    | read hc => exact same (fun t' ht => by rw [e t' ht]; exact .read hc) (hk _) hT rfl
    | kid hi hq => exact kid hi hq
  | write e hk hT =>
    cases st with
    | write => exact same (fun t' ht => by rw [e t' ht]; exact .write) hk hT rfl
    | kid hi hq => exact kid hi hq
  | alloc e hk hT =>
    cases st with
    | alloc => exact same (fun t' ht => by rw [e t' ht]; exact .alloc) (hk _) hT rfl
    | kid hi hq => exact kid hi hq
  | go e hk hT =>
    cases st with
    | go => exact same (fun t' ht => by rw [e t' ht]; exact .go) (hk _) hT rfl
    | kid hi hq => exact kid hi hq
  | recv e hk hT =>
    cases st with
    | recv hi hq => exact same (fun t' ht => by rw [e t' ht]; exact .recv hi hq) (hk _) hT rfl
    | closed hi => exact same (fun t' ht => by rw [e t' ht]; exact .closed hi) (hk _) hT rfl
    | kid hi hq => exact kid hi hq
  | @amid _ _ _ _ _ _ p _ g hc1 hP hk hT =>
    cases st with
    | kid hi hq => exact kid hi hq
    | @read _ _ c2 _ _ hc2 =>
      obtain rfl := Option.some.inj (hc1.symm.trans hc2)
      simp only
      generalize p _ = q at hP ⊢
      cases hP with
      | ret => exact askInv_of (n := n + 1) (n' := n') (C := C) hE hA hk (hr.more (List.prefix_append _ _)) hT (hU.snoc g) hn (by omega)
      | read hc3 hP' =>
        refine ⟨F, t, _, n', .amid g hc3 hP' hk hT, hp, hU, hr, hn, ?_⟩
        omega

/-- The asking caller. -/
theorem asked {base : Nat} (hm : ∀ t, ∃ N, (F0 t).wpn φ base (fun x h => x = X' t ∧ h = H t) N [] h0) (hA : ∀ t p, A t p (X' t) → G t ∧ ∃ r, r ≤ cost t ∧ Peeks (H t) p (nxt t) r)
    {b : Nat} {m : Main D X B (List ε)} (ha : m.Asking A Fin b F0 []) :
    Ends φ m h0 (fun t h => h = H t ∧ Unrolled G nxt t ∧ Fin t (X' t)) ∧
      ∀ n s a c k, Spec.Runs (Step φ) n ⟨h0, m, []⟩ s → s.main = .write a c k → ∀ p ∈ s.kids, p.AtRead a → ∃ c0, s.heap.mem a = some c0 ∧ φ c0 = φ c := by
  have hE : ∀ t, Ends φ (F0 t) h0 fun x h => x = X' t ∧ h = H t := fun t => ends_of (hm t).choose_spec
  have inv : ∀ {n : Nat} {s : Sys D X B (List ε)}, Spec.Runs (Step φ) n ⟨h0, m, []⟩ s → AskInv φ A Fin H G nxt cost (extAsk nxt b []) F0 h0 (remAsk nxt cost b []) n s := by
    intro n s hr
    generalize e0 : (⟨h0, m, []⟩ : Sys D X B (List ε)) = s0 at hr
    induction hr with
    | refl =>
      subst e0
      exact askInv_of hE hA ha (fun t' _ _ => ⟨0, .refl _⟩) (List.prefix_refl _) (fun i hi => by simp at hi) (.refl _) (by omega)
    | step _ st ih => exact askInv_step hE hA (ih e0) st
  obtain ⟨N, hN⟩ := (hE (extAsk nxt b [])).terminates
  have fin : ∀ n s t, Spec.Runs (Step φ) n ⟨h0, m, []⟩ s → s.main = .ret t → ∃ x j, Unrolled G nxt t ∧ Fin t x ∧ Spec.Runs (Step φ) j ⟨h0, F0 t, []⟩ ⟨s.heap, .ret x, s.kids⟩ := by
    intro n s t hr hs
    obtain ⟨F, t1, c, n', hb, hp, hU, hA', hn, hc⟩ := inv hr
    rw [hs] at hb
    generalize s.heap = h at hb hA' ⊢
    cases hb with
    | ret e f =>
      obtain ⟨j, hj⟩ := hA' t (List.prefix_refl _) hp
      rw [e _ (List.prefix_refl _)] at hj
      exact ⟨_, j, hU, f, hj⟩
  refine ⟨⟨fun n s hr => ?_, fun n s hr => ?_, ⟨N + remAsk nxt cost b [], fun n s hr => ?_⟩, fun n s t hr hs => ?_, fun n s t hr hs => ?_⟩, fun n s a c k hr hs p hp ha => ?_⟩
  · obtain ⟨F, t, c, n', hb, hp, hU, hA', hn, hc⟩ := inv hr
    rintro (⟨e, h1⟩ | h1)
    · rw [h1] at hb
      generalize s.heap = h at hb
      cases hb
    · exact (hE _).noPanic _ _ hn (.inr h1)
  · obtain ⟨F, t, c, n', hb, hp, hU, hA', hn, hc⟩ := inv hr
    obtain ⟨h, m', ks⟩ := s
    simp only at hb hn ⊢
    have st := (hE _).noDeadlock _ _ hn
    cases hb with
    | ret _ _ => exact .inl ⟨_, rfl⟩
    | read e _ _ =>
      rw [e _ hp] at st
      rcases st with ⟨_, e⟩ | ⟨s', st⟩
      · cases e
      · cases st with
        | read hc => exact .inr ⟨_, .read hc⟩
        | kid hi hq => exact .inr ⟨_, .kid hi hq⟩
    | write _ _ _ => exact .inr ⟨_, .write⟩
    | alloc _ _ _ => exact .inr ⟨_, .alloc⟩
    | go _ _ _ => exact .inr ⟨_, .go⟩
    | recv e _ _ =>
      rw [e _ hp] at st
      rcases st with ⟨_, e⟩ | ⟨s', st⟩
      · cases e
      · cases st with
        | recv hi hq => exact .inr ⟨_, .recv hi hq⟩
        | closed hi => exact .inr ⟨_, .closed hi⟩
        | kid hi hq => exact .inr ⟨_, .kid hi hq⟩
    | amid _ hc1 _ _ _ => exact .inr ⟨_, .read hc1⟩
  · obtain ⟨F, t, c, n', _, _, _, _, hn, hc⟩ := inv hr
    have := hN _ _ hn
    omega
  · obtain ⟨x, j, h1, h2, h3⟩ := fin n s t hr hs
    obtain ⟨rfl, h4⟩ := (hE t).result _ _ x h3 rfl
    exact ⟨h4, h1, h2⟩
  · obtain ⟨x, j, _, _, h3⟩ := fin n s t hr hs
    exact (hE t).noLeak _ _ x h3 rfl
  · obtain ⟨F, t, c', n', hb, hp', _, _, hn, _⟩ := inv hr
    rw [hs] at hb
    generalize s.heap = h at hb hn ⊢
    cases hb with
    | write e _ _ =>
      rw [e _ hp'] at hn
      exact clash_of (hm _).choose_spec hn rfl hp ha

end

end Verif.Pipe
