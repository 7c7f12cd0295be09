import Verif.Pipe.Script

/-!
# A caller that leaves a loop early
-/

namespace Verif.Pipe
open Verif.Heap

variable {D X B α : Type} {φ : Cell D → X} {h : Heap D} {pin : Pin X}

/-- Receive up to `n` values from channel `i` and return them. -/
def takeFrom (i : Nat) : Nat → List B → Main D X B (List B)
  | 0, acc => .ret acc
  | n + 1, acc => .recv i fun
    | none => .ret acc
    | some b => takeFrom i n (acc ++ [b])

/-- `for b := range ch { ...; if len == n { break } }` and return. -/
def takeMain (g : Gen X B) (n : Nat) : Main D X B (List B) := .go g fun i => takeFrom i n []

/-- However the steps interleave: nothing panics, the caller returns the first `k` values, and the goroutine is not through then, nor at
any time later. -/
structure Leaks (φ : Cell D → X) (m : Main D X B α) (h : Heap D) (x : α) : Prop where
  noPanic : ∀ n s, Spec.Runs (Step φ) n ⟨h, m, []⟩ s → ¬ s.Bad
  noDeadlock : ∀ n s, Spec.Runs (Step φ) n ⟨h, m, []⟩ s → (∃ x, s.main = .ret x) ∨ ∃ s', Step φ s s'
  terminates : ∃ N, ∀ n s, Spec.Runs (Step φ) n ⟨h, m, []⟩ s → n ≤ N
  result : ∀ n s y, Spec.Runs (Step φ) n ⟨h, m, []⟩ s → s.main = .ret y → y = x
  leak : ∀ n s, Spec.Runs (Step φ) n ⟨h, m, []⟩ s → (∃ y, s.main = .ret y) → ¬ allOver s.kids

/-- The state: `j` values received. -/
def Taking (pin : Pin X) (h : Heap D) (k : Nat) (bs : List B) (N : Nat) (s : Sys D X B (List B)) : Prop :=
  ∃ j p n, j ≤ k ∧ s = ⟨h, takeFrom 0 (k - j) (bs.take j), [p]⟩ ∧ p.Good pin (bs.drop j) n ∧ n < N

theorem good_not_over {p : Proc X B} {b : B} {l : List B} {n : Nat} (hp : p.Good pin (b :: l) n) : ¬ p.Over := by
  intro ho
  obtain ⟨ks, rfl⟩ := over_done ho
  have := (good_done hp).1
  cases this

theorem taking_step (hk : Holds φ pin h) {k : Nat} {bs : List B} (hlt : k < bs.length) {N : Nat} {s s' : Sys D X B (List B)} (hs : Taking pin h k bs N s) (st : Step φ s s') :
    ∃ M, M < N ∧ Taking pin h k bs M s' := by
  obtain ⟨j, p, n, h1, rfl, h3, h4⟩ := hs
  have hd : bs.drop j = bs[j] :: bs.drop (j + 1) := List.drop_eq_getElem_cons (by omega)
  cases e : k - j with
  | zero =>
    rw [e] at st
    cases st with
    | @kid _ i _ _ q q' hi hq =>
      cases i with
      | succ i => simp at hi
      | zero =>
        simp at hi
        subst hi
        obtain ⟨l', n', g1, g2, g3⟩ := hq.sound hk h3
        simp at g2
        exact ⟨n, h4, j, q', n', h1, by rw [e]; rfl, by rw [g2]; exact g1, g3⟩
  | succ d =>
    rw [e] at st
    cases st with
    | @kid _ i _ _ q q' hi hq =>
      cases i with
      | succ i => simp at hi
      | zero =>
        simp at hi
        subst hi
        obtain ⟨l', n', g1, g2, g3⟩ := hq.sound hk h3
        simp at g2
        exact ⟨n, h4, j, q', n', h1, by rw [e]; rfl, by rw [g2]; exact g1, g3⟩
    | @recv _ _ _ _ q q' b hi hq =>
      simp at hi
      subst hi
      obtain ⟨l', n', g1, g2, g3⟩ := hq.sound hk h3
      have g2 : bs[j] :: bs.drop (j + 1) = b :: l' := hd.symm.trans g2
      injection g2 with g2 g4
      subst g2 g4
      refine ⟨n, h4, j + 1, q', n', by omega, ?_, g1, g3⟩
      rw [show k - (j + 1) = d by omega, List.take_succ_eq_append_getElem (by omega)]
      rfl
    | closed hi =>
      simp at hi
      subst hi
      have := (good_done h3).1
      rw [hd] at this; cases this

theorem take_leaks (hk : Holds φ pin h) {g : Gen X B} {bs : List B} {n : Nat} (hg : g.out pin [] = some (bs, n)) {k : Nat} (hlt : k < bs.length) :
    Leaks φ (takeMain g k) h (bs.take k) := by
  have h0 : ∀ s, Step φ ⟨h, takeMain g k, []⟩ s → Taking pin h k bs (n + 1) s := by
    intro s st
    cases st with
    | go => exact ⟨0, _, n, by omega, rfl, by rw [Proc.Good]; exact ⟨[], 0, n, by rw [goods]; exact ⟨rfl, rfl⟩, hg, by omega⟩, by omega⟩
    | kid hi _ => simp at hi
  have inv : ∀ i s, Spec.Runs (Step φ) i ⟨h, takeMain g k, []⟩ s → (i = 0 ∧ s = ⟨h, takeMain g k, []⟩) ∨ ∃ M, i + M ≤ n + 2 ∧ Taking pin h k bs M s := by
    intro i
    induction i with
    | zero => intro s hs; cases hs; exact .inl ⟨rfl, rfl⟩
    | succ i ih =>
      intro s hs
      obtain ⟨t, h1, h2⟩ : ∃ t, Spec.Runs (Step φ) i ⟨h, takeMain g k, []⟩ t ∧ Step φ t s := by
        cases hs with
        | step h1 h2 => exact ⟨_, h1, h2⟩
      rcases ih _ h1 with ⟨rfl, rfl⟩ | ⟨M, m1, m2⟩
      · exact .inr ⟨n + 1, by omega, h0 _ h2⟩
      · obtain ⟨M', m3, m4⟩ := taking_step hk hlt m2 h2
        exact .inr ⟨M', by omega, m4⟩
  refine ⟨?_, ?_, ⟨n + 2, ?_⟩, ?_, ?_⟩
  · intro i s hs hb
    rcases inv i s hs with ⟨_, rfl⟩ | ⟨M, _, j, p, m, _, rfl, h3, _⟩
    · rcases hb with ⟨e, he⟩ | ⟨p, hp, _⟩
      · cases he
      · simp at hp
    · rcases hb with ⟨e, he⟩ | ⟨p', hp, hb⟩
      · simp only at he
        cases hd : k - j <;> rw [hd] at he <;> cases he
      · simp at hp
        subst hp
        exact not_bad hk hb h3
  · intro i s hs
    rcases inv i s hs with ⟨_, rfl⟩ | ⟨M, _, j, p, m, h1, rfl, h3, _⟩
    · exact .inr ⟨_, .go⟩
    · cases hd : k - j with
      | zero => exact .inl ⟨_, rfl⟩
      | succ d =>
        right
        rcases progress hk p h3 with ⟨ks, rfl⟩ | ⟨p', hp⟩ | ⟨b, p', hp⟩
        · exact ⟨_, .closed (by rfl)⟩
        · exact ⟨_, .kid (i := 0) (by rfl) hp⟩
        · exact ⟨_, .recv (by rfl) hp⟩
  · intro i s hs
    rcases inv i s hs with ⟨rfl, _⟩ | ⟨M, h1, _⟩ <;> omega
  · intro i s y hs hy
    rcases inv i s hs with ⟨_, rfl⟩ | ⟨M, _, j, p, m, h1, rfl, h3, _⟩
    · cases hy
    · simp only at hy
      cases hd : k - j with
      | zero =>
        rw [hd] at hy
        cases hy
        rw [show j = k by omega]
      | succ d => rw [hd] at hy; cases hy
  · rintro i s hs ⟨y, hy⟩ ho
    rcases inv i s hs with ⟨_, rfl⟩ | ⟨M, _, j, p, m, h1, rfl, h3, _⟩
    · cases hy
    · rw [List.drop_eq_getElem_cons (by omega)] at h3
      exact good_not_over h3 ho.1

/-- A caller that takes only the first `k` entries of a tree it holds. -/
theorem loop_leaks {D O R B E : Type} {I : OImpl D O R} {n : Nat} (hI : I.Lawful n) (ops : List (SOp O)) (hn : ops.length ≤ n)
    (hl : (Book.init : Book O).LegalAll2 I.cowOk I.inpOk ops) {Lp : Loop D R B E} {L : List O → List E → Prop} (hL : Lp.Lawful I L n) :
    ∃ s, OStore.init.exec I ops = .ok s ∧ ∀ (i : Nat) r v, s.roots[i]? = some r → (Book.init.exec ops).vs[i]? = some v →
      ∃ es, L v.2 es ∧ ∀ k, k < es.length → ∃ x, x.length = k ∧ Leaks id (takeMain (Lp.gen r) k) s.heap x := by
  obtain ⟨s, e, i1⟩ := oexec_inv hI (oinv_init I) ops (by omega) hl
  obtain ⟨Z, T, _, _, h1, h2, h3, _⟩ := OInv.zinv hI i1
  refine ⟨s, e, fun i r v hr hv => ?_⟩
  rw [h1, List.getElem?_map] at hr
  rw [h2, List.getElem?_map] at hv
  cases hT : T[i]? with
  | none => rw [hT] at hr; cases hr
  | some t =>
    rw [hT] at hr hv
    cases hr; cases hv
    obtain ⟨a1, _, a2, _⟩ := h3 t (List.mem_of_getElem? hT)
    obtain ⟨bs, es, c, g1, g2, g3, g4, _⟩ := hL.ok (by omega) a1
    exact ⟨es, g3, fun k hk => ⟨bs.take k, by rw [List.length_take]; omega, take_leaks (pinOf_holds fun a ha => hI.lt a1 ha) g1 (by omega)⟩⟩

end Verif.Pipe
