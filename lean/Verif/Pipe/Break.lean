import Verif.Pipe.Script

/-!
# Scripts with loops that may be left

As `Pipe/Script.lean`, with `break`: a loop that is left before its channel is closed leaves its goroutines behind.  They may still run up to
their next send, beside all that the caller does later.
-/

namespace Verif.Pipe
open Verif.Heap Verif.Heap.Prog

variable {D X O R K A B E α β σ : Type} {φ : Cell D → X} {h : Heap D} {pin : Pin X}

/-! ## The outcome -/

/-- The next step of the goroutine or of one below it reads the cell at `a`. -/
inductive Proc.AtRead (a : Addr) : Proc X B → Prop where
  | here {k : X → Gen X B} {ks : List (Proc X B)} : Proc.AtRead a (.mk (.read a k) ks)
  | kid {i : Nat} {g : Gen X B} {ks : List (Proc X B)} {p : Proc X B} : ks[i]? = some p → p.AtRead a → Proc.AtRead a (.mk g ks)

/-- The goroutine has not returned. -/
def Proc.live : Proc X B → Bool
  | .mk .done _ => false
  | _ => true

/-- However the steps interleave: nothing panics, there is no deadlock of the caller and no endless run; the caller never writes a cell that a
goroutine may read at that moment; at its end the result, the memory and a number `w` satisfy `Q`; from then on at least `w` of the goroutines
it has started have not returned, and when nothing more can happen it is exactly `w`, all others having returned with all below them. -/
structure Leaves (φ : Cell D → X) (m : Main D X B α) (h : Heap D) (Q : α → Nat → Heap D → Prop) : Prop where
  noPanic : ∀ n s, Spec.Runs (Step φ) n ⟨h, m, []⟩ s → ¬ s.Bad
  noDeadlock : ∀ n s, Spec.Runs (Step φ) n ⟨h, m, []⟩ s → (∃ x, s.main = .ret x) ∨ ∃ s', Step φ s s'
  terminates : ∃ N, ∀ n s, Spec.Runs (Step φ) n ⟨h, m, []⟩ s → n ≤ N
  noRace : ∀ n s a c k, Spec.Runs (Step φ) n ⟨h, m, []⟩ s → s.main = .write a c k → ∀ p ∈ s.kids, ¬ p.AtRead a
  result : ∀ n s x, Spec.Runs (Step φ) n ⟨h, m, []⟩ s → s.main = .ret x → ∃ w, Q x w s.heap ∧ w ≤ (s.kids.filter Proc.live).length ∧
    ((¬ ∃ s', Step φ s s') → (s.kids.filter Proc.live).length = w ∧ ∀ p ∈ s.kids, p.live = false → p.Over)

/-! ## From one run to all -/

/-- The channels on which something is still to come. -/
def stuckIn (q : Chans X B) : Nat := (q.filter fun | some (_, _ :: _) => true | _ => false).length

theorem stuckIn_append (q u : Chans X B) : stuckIn (q ++ u) = stuckIn q + stuckIn u := by simp [stuckIn]

/-- As `Main.wpn`, but channels may be left open, and what goroutines under way may read is not written at all. -/
def Main.wpl (φ : Cell D → X) (Q : α → Nat → Heap D → Prop) : Main D X B α → Nat → Chans X B → Heap D → Prop
  | .ret x, _, q, h => Q x (stuckIn q) h
  | .stop _, _, _, _ => False
  | .read a k, N, q, h => ∃ c M, h.mem a = some c ∧ N = M + 1 ∧ (k c).wpl φ Q M q h
  | .write a c k, N, q, h => (∀ p l, some (p, l) ∈ q → p a = none) ∧ ∃ M, N = M + 1 ∧ k.wpl φ Q M q (h.put a c)
  | .alloc c k, N, q, h => ∃ M, N = M + 1 ∧ (k h.next).wpl φ Q M q (h.push c)
  | .go g k, N, q, h => ∃ pin l m M, Holds φ pin h ∧ g.out pin [] = some (l, m) ∧ N = M + m + 1 ∧ (k q.length).wpl φ Q M (q ++ [some (pin, l)]) h
  | .recv i k, N, q, h => (∃ p b l M, q[i]? = some (some (p, b :: l)) ∧ N = M + 1 ∧ (k (some b)).wpl φ Q M (q.set i (some (p, l))) h) ∨
      (∃ p M, q[i]? = some (some (p, [])) ∧ N = M + 1 ∧ (k none).wpl φ Q M (q.set i none) h) ∨
      ∃ M, q[i]? = some none ∧ N = M + 1 ∧ (k none).wpl φ Q M q h

/-- The whole ends in `Q` within `N` steps. -/
def Sys.OkL (φ : Cell D → X) (Q : α → Nat → Heap D → Prop) (N : Nat) (s : Sys D X B α) : Prop :=
  ∃ q n M, kidsOk φ s.heap s.kids q n ∧ M + n ≤ N ∧ s.main.wpl φ Q M q s.heap

theorem Step.okL {Q : α → Nat → Heap D → Prop} {s s' : Sys D X B α} (st : Step φ s s') {N : Nat} (ho : s.OkL φ Q N) : ∃ M, M < N ∧ s'.OkL φ Q M := by
  obtain ⟨q, n, M, h1, h2, h3⟩ := ho
  cases st with
  | read hc =>
    obtain ⟨c, M', a1, rfl, a2⟩ := h3
    rw [hc] at a1; cases a1
    exact ⟨M' + n, by omega, q, n, M', h1, Nat.le_refl _, a2⟩
  | write =>
    obtain ⟨a1, M', rfl, a2⟩ := h3
    exact ⟨M' + n, by omega, q, n, M', kidsOk_mono h1 fun p l hp hh => hh.put fun x hx => (by rw [a1 p l hp] at hx; cases hx), Nat.le_refl _, a2⟩
  | alloc =>
    obtain ⟨M', rfl, a2⟩ := h3
    exact ⟨M' + n, by omega, q, n, M', kidsOk_mono h1 fun p l hp hh => hh.push, Nat.le_refl _, a2⟩
  | @go _ g _ _ =>
    obtain ⟨pin, l, m, M', a0, a1, rfl, a2⟩ := h3
    have h4 := kidsOk_append (m := m) (o := some (pin, l)) h1 (p := .mk g []) (.inr ⟨pin, l, rfl, a0, by
      rw [Proc.Good]; exact ⟨[], 0, m, by simp [goods], a1, by omega⟩⟩)
    rw [kidsOk_length h1] at a2
    exact ⟨M' + (n + m), by omega, _, _, M', h4, Nat.le_refl _, a2⟩
  | recv hi st =>
    obtain ⟨o, m1, a1, a2, a3⟩ := kidsOk_get h1 hi
    rcases a1 with ⟨_, a1, _⟩ | ⟨pin, l1, rfl, hk, a1⟩
    · exact absurd a1 st.not_over
    · obtain ⟨l2, m2, b1, b2, b3⟩ := st.sound hk a1
      obtain ⟨n', c1, c2⟩ := a3 _ (some (pin, l2)) _ (.inr ⟨_, _, rfl, hk, b1⟩)
      subst b2
      rcases h3 with ⟨p, b, l, M', d1, rfl, d2⟩ | ⟨p, M', d1, _⟩ | ⟨M', d1, _⟩
      · rw [a2] at d1; cases d1
        exact ⟨M' + n', by omega, _, _, M', c1, Nat.le_refl _, d2⟩
      · rw [a2] at d1; cases d1
      · rw [a2] at d1; cases d1
  | closed hi =>
    obtain ⟨o, m1, a1, a2, a3⟩ := kidsOk_get h1 hi
    rcases a1 with ⟨rfl, a1, rfl⟩ | ⟨pin, l1, rfl, hk, a1⟩
    · rcases h3 with ⟨p, b, l, M', d1, rfl, d2⟩ | ⟨p, M', d1, _⟩ | ⟨M', d1, rfl, d2⟩
      · rw [a2] at d1; cases d1
      · rw [a2] at d1; cases d1
      · exact ⟨M' + n, by omega, _, _, M', h1, Nat.le_refl _, d2⟩
    · obtain ⟨rfl, rfl, d0⟩ := good_done a1
      obtain ⟨n', c1, c2⟩ := a3 _ none 0 (.inl ⟨rfl, d0, rfl⟩)
      rw [set_same hi] at c1
      rcases h3 with ⟨p, b, l, M', d1, rfl, d2⟩ | ⟨p, M', d1, rfl, d2⟩ | ⟨M', d1, _⟩
      · rw [a2] at d1; cases d1
      · exact ⟨M' + n', by omega, _, _, M', c1, Nat.le_refl _, d2⟩
      · rw [a2] at d1; cases d1
  | kid hi st =>
    obtain ⟨o, m1, a1, a2, a3⟩ := kidsOk_get h1 hi
    rcases a1 with ⟨_, a1, _⟩ | ⟨pin, l1, rfl, hk, a1⟩
    · exact absurd a1 st.not_over
    · obtain ⟨l2, m2, b1, b2, b3⟩ := st.sound hk a1
      obtain ⟨n', c1, c2⟩ := a3 _ (some (pin, l2)) _ (.inr ⟨_, _, rfl, hk, b1⟩)
      have b2 : l1 = l2 := b2
      subst b2
      rw [set_same a2] at c1
      exact ⟨M + n', by omega, _, _, M, c1, Nat.le_refl _, h3⟩

theorem okL_runs {Q : α → Nat → Heap D → Prop} {s s' : Sys D X B α} {k N : Nat} (hr : Spec.Runs (Step φ) k s s') (ho : s.OkL φ Q N) : ∃ M, M + k ≤ N ∧ s'.OkL φ Q M := by
  induction hr with
  | refl => exact ⟨N, Nat.le_refl _, ho⟩
  | step _ st ih =>
    obtain ⟨M, h1, h2⟩ := ih ho
    obtain ⟨M', h3, h4⟩ := st.okL h2
    exact ⟨M', by omega, h4⟩

/-- What has returned reads nothing. -/
theorem Proc.AtRead.not_over {a : Addr} {p : Proc X B} (hr : p.AtRead a) : ¬ p.Over := by
  induction hr with
  | here => intro ho; rw [Proc.Over] at ho; cases ho.1
  | kid hi _ ih =>
    intro ho
    rw [Proc.Over] at ho
    exact ih (allOver_get ho.2 hi)

/-- A goroutine reads only what it needs. -/
theorem Proc.AtRead.pinned {a : Addr} {p : Proc X B} (hr : p.AtRead a) : ∀ {l : List B} {n : Nat}, p.Good pin l n → pin a ≠ none := by
  induction hr with
  | here =>
    intro l n hg ha
    rw [Proc.Good] at hg
    obtain ⟨q, _, _, _, h2, _⟩ := hg
    simp [Gen.out, ha] at h2
  | kid hi hr ih =>
    intro l n hg
    rw [Proc.Good] at hg
    obtain ⟨q, _, _, h1, _, _⟩ := hg
    obtain ⟨o, m, g, _⟩ := goods_get h1 hi
    rcases g with ⟨_, g, _⟩ | ⟨l', _, g⟩
    · exact absurd g hr.not_over
    · exact ih g

theorem live_false {p : Proc X B} (h : p.live = false) : ∃ ks, p = .mk .done ks := by
  obtain ⟨g, ks⟩ := p
  cases g <;> first | exact ⟨ks, rfl⟩ | cases h

theorem kidsOk_live : ∀ {ks : List (Proc X B)} {q : Chans X B} {n : Nat}, kidsOk φ h ks q n → stuckIn q ≤ (ks.filter Proc.live).length
  | [], q, n, hk => by rw [hk.1]; exact Nat.le_refl _
  | p :: ps, q, n, hk => by
    obtain ⟨o, q', a, b, rfl, rfl, h1, h2⟩ := hk
    have ih := kidsOk_live h1
    have hc : stuckIn (o :: q') = stuckIn [o] + stuckIn q' := stuckIn_append [o] q'
    rw [hc, List.filter_cons]
    rcases h2 with ⟨rfl, _, _⟩ | ⟨pin, l, rfl, _, hg⟩
    · have : stuckIn [(none : Option (Pin X × List B))] = 0 := rfl
      split <;> (try simp only [List.length_cons]) <;> omega
    · cases l with
      | nil =>
        have : stuckIn [(some (pin, []) : Option (Pin X × List B))] = 0 := rfl
        split <;> (try simp only [List.length_cons]) <;> omega
      | cons x l =>
        have h3 : stuckIn [(some (pin, x :: l) : Option (Pin X × List B))] = 1 := rfl
        cases e : p.live with
        | true => simp; omega
        | false =>
          obtain ⟨ks, rfl⟩ := live_false e
          have := (good_done hg).1
          cases this

theorem kidsOk_final : ∀ {ks : List (Proc X B)} {q : Chans X B} {n : Nat}, kidsOk φ h ks q n → (∀ p ∈ ks, ¬ ∃ p', PStep φ h p none p') →
    (ks.filter Proc.live).length = stuckIn q ∧ ∀ p ∈ ks, p.live = false → p.Over
  | [], q, n, hk, _ => by rw [hk.1]; exact ⟨rfl, fun p hp => by cases hp⟩
  | p :: ps, q, n, hk, hf => by
    obtain ⟨o, q', a, b, rfl, rfl, h1, h2⟩ := hk
    obtain ⟨ih1, ih2⟩ := kidsOk_final h1 fun p hp => hf p (by simp [hp])
    have hc : stuckIn (o :: q') = stuckIn [o] + stuckIn q' := stuckIn_append [o] q'
    rw [hc, List.filter_cons]
    have key : (p.live = false ∧ p.Over ∧ stuckIn [o] = 0) ∨ (p.live = true ∧ stuckIn [o] = 1) := by
      rcases h2 with ⟨rfl, ho, _⟩ | ⟨pin, l, rfl, hh, hg⟩
      · obtain ⟨ks, rfl⟩ := over_done ho
        exact .inl ⟨rfl, ho, rfl⟩
      · rcases progress hh p hg with ⟨ks, rfl⟩ | hs | ⟨b, p', hs⟩
        · obtain ⟨rfl, _, ho⟩ := good_done hg
          exact .inl ⟨rfl, ho, rfl⟩
        · exact absurd hs (hf p (by simp))
        · obtain ⟨l', n', _, e, _⟩ := hs.sound hh hg
          simp only [Option.toList, List.singleton_append] at e
          subst e
          refine .inr ⟨?_, rfl⟩
          cases e : p.live with
          | true => rfl
          | false =>
            obtain ⟨ks, rfl⟩ := live_false e
            have := (good_done hg).1
            cases this
    rcases key with ⟨k1, k2, k3⟩ | ⟨k1, k2⟩
    · rw [k1, k3]
      refine ⟨by simp [ih1], fun p' hp' he => ?_⟩
      rcases List.mem_cons.1 hp' with rfl | hp'
      · exact k2
      · exact ih2 p' hp' he
    · rw [k1, k2]
      refine ⟨by simp [ih1]; omega, fun p' hp' he => ?_⟩
      rcases List.mem_cons.1 hp' with rfl | hp'
      · rw [k1] at he; cases he
      · exact ih2 p' hp' he

/-- The outcome for all schedules, from one run of the caller. -/
theorem leaves_of {Q : α → Nat → Heap D → Prop} {m : Main D X B α} {N : Nat} (hm : m.wpl φ Q N [] h) : Leaves φ m h Q := by
  have h0 : (⟨h, m, []⟩ : Sys D X B α).OkL φ Q N := ⟨[], 0, N, ⟨rfl, rfl⟩, Nat.le_refl _, hm⟩
  refine ⟨fun n s hr hb => ?_, fun n s hr => ?_, ⟨N, fun n s hr => ?_⟩, fun n s a c k hr hw p hp ha => ?_, fun n s x hr hx => ?_⟩
  · obtain ⟨M, _, q, k, M', h1, _, h3⟩ := okL_runs hr h0
    rcases hb with ⟨e, hb⟩ | ⟨p, hp, hb⟩
    · rw [hb] at h3; exact h3
    · obtain ⟨i, hi⟩ := List.getElem?_of_mem hp
      obtain ⟨o, m, a, _⟩ := kidsOk_get h1 hi
      rcases a with ⟨_, a, _⟩ | ⟨pin, l, _, hk, a⟩
      · exact allOver_not_bad hb a
      · exact not_bad hk hb a
  · obtain ⟨M, _, q, k, M', h1, _, h3⟩ := okL_runs hr h0
    obtain ⟨hp, mn, ks⟩ := s
    cases mn with
    | ret x => exact .inl ⟨x, rfl⟩
    | stop e => exact h3.elim
    | read a k => obtain ⟨c, _, hc, _⟩ := h3; exact .inr ⟨_, .read hc⟩
    | write a c k => exact .inr ⟨_, .write⟩
    | alloc c k => exact .inr ⟨_, .alloc⟩
    | go g k => exact .inr ⟨_, .go⟩
    | recv i k =>
      have hl := kidsOk_length h1
      have hi : ∃ l, q[i]? = some l := by
        rcases h3 with ⟨_, b, l, _, d, _⟩ | ⟨_, _, d, _⟩ | ⟨_, d, _⟩ <;> exact ⟨_, d⟩
      obtain ⟨l, hi⟩ := hi
      have hlt : i < ks.length := by have := (List.getElem?_eq_some_iff.1 hi).1; simp only at hl; omega
      obtain ⟨o, m, a, _⟩ := kidsOk_get h1 (List.getElem?_eq_getElem hlt)
      have hp : (∃ ks', ks[i] = .mk .done ks') ∨ (∃ p', PStep φ hp ks[i] none p') ∨ ∃ b p', PStep φ hp ks[i] (some b) p' := by
        rcases a with ⟨_, a, _⟩ | ⟨pin, l, _, hk, a⟩
        · exact .inl (over_done a)
        · exact progress hk _ a
      rcases hp with ⟨ks', e⟩ | ⟨p', st⟩ | ⟨b, p', st⟩
      · exact .inr ⟨_, .closed (by rw [List.getElem?_eq_getElem hlt, e])⟩
      · exact .inr ⟨_, .kid (List.getElem?_eq_getElem hlt) st⟩
      · exact .inr ⟨_, .recv (List.getElem?_eq_getElem hlt) st⟩
  · obtain ⟨M, h1, _⟩ := okL_runs hr h0; omega
  · obtain ⟨M, _, q, k', M', h1, _, h3⟩ := okL_runs hr h0
    rw [hw] at h3
    obtain ⟨i, hi⟩ := List.getElem?_of_mem hp
    obtain ⟨o, m, g, ho, _⟩ := kidsOk_get h1 hi
    rcases g with ⟨_, g, _⟩ | ⟨pin, l, rfl, hk, g⟩
    · exact ha.not_over g
    · exact ha.pinned g (h3.1 pin l (List.mem_of_getElem? ho))
  · obtain ⟨M, _, q, k, M', h1, _, h3⟩ := okL_runs hr h0
    rw [hx] at h3
    refine ⟨stuckIn q, h3, kidsOk_live h1, fun hf => kidsOk_final h1 fun p hp hs => hf ?_⟩
    obtain ⟨p', hs⟩ := hs
    obtain ⟨i, hi⟩ := List.getElem?_of_mem hp
    exact ⟨_, .kid hi hs⟩

/-! ## Rules -/

/-- With channels `q` the caller ends in `Q`. -/
def DoesL (φ : Cell D → X) (Q : α → Nat → Heap D → Prop) (q : Chans X B) (m : Main D X B α) (h : Heap D) : Prop := ∃ N, m.wpl φ Q N q h

variable {Q : α → Nat → Heap D → Prop}

theorem doesL_prog {q : Chans X B} {W : Addr → Prop} {p : Prog D β} {P : β → Heap D → Prop} {k : β → Main D X B α} (hp : wp W p P h)
    (hW : Avoids q W) (hk : ∀ x h', P x h' → DoesL φ Q q (k x) h') : DoesL φ Q q (.prog p k) h := by
  induction p generalizing h with
  | ret x => exact hk x h hp
  | stop e => exact hp.elim
  | read a p ih =>
    obtain ⟨c, h1, h2⟩ := hp
    obtain ⟨N, hN⟩ := ih c h2
    exact ⟨N + 1, c, N, h1, rfl, hN⟩
  | write a c p ih =>
    obtain ⟨N, hN⟩ := ih hp.2.2
    exact ⟨N + 1, fun p' l hm => hW p' l a hm hp.1, N, rfl, hN⟩
  | alloc c p ih =>
    obtain ⟨N, hN⟩ := ih _ hp
    exact ⟨N + 1, N, rfl, hN⟩

/-- `for b := range ch { s, stop = body(b, s); if stop { break } }`, then `k`.  The bound on the number of rounds is proved sufficient. -/
def Main.rangeB (i : Nat) (body : B → σ → (σ → Bool → Main D X B α) → Main D X B α) : Nat → σ → (σ → Main D X B α) → Main D X B α
  | 0, _, _ => .stop .fuel
  | f + 1, s, k => .recv i fun
    | none => k s
    | some b => body b s fun s stop => if stop then k s else Main.rangeB i body f s k

/-- The loop, `u` being the channels of loops left meanwhile: `I` holds before every round, `J` when the loop is left. -/
theorem doesL_rangeB {q u : Chans X B} {body : B → σ → (σ → Bool → Main D X B α) → Main D X B α} {f : Nat} {k : σ → Main D X B α} {l : List B} {s : σ}
    {I J : List B → σ → Heap D → Chans X B → Prop} (hf : l.length < f) (h1 : I l s h u)
    (hbody : ∀ b l s h u (k : σ → Bool → Main D X B α), I (b :: l) s h u → (∀ s' h' u', I l s' h' u' → DoesL φ Q (q ++ some (pin, l) :: u') (k s' false) h') →
      (∀ s' h' u', J l s' h' u' → DoesL φ Q (q ++ some (pin, l) :: u') (k s' true) h') → DoesL φ Q (q ++ some (pin, l) :: u) (body b s k) h)
    (hk : ∀ s' h' u', I [] s' h' u' → DoesL φ Q (q ++ none :: u') (k s') h')
    (hj : ∀ l s' h' u', J l s' h' u' → DoesL φ Q (q ++ some (pin, l) :: u') (k s') h') :
    DoesL φ Q (q ++ some (pin, l) :: u) (Main.rangeB q.length body f s k) h := by
  induction l generalizing f s h u with
  | nil =>
    cases f with
    | zero => simp at hf
    | succ f =>
      obtain ⟨N, hN⟩ := hk s h u h1
      exact ⟨N + 1, .inr (.inl ⟨pin, N, by simp, rfl, by simpa using hN⟩)⟩
  | cons b l ih =>
    cases f with
    | zero => simp at hf
    | succ f =>
      have := hbody b l s h u (fun s stop => if stop then k s else Main.rangeB q.length body f s k) h1
        (fun s' h' u' hr => by simpa using ih (f := f) (by simp at hf; omega) hr) (fun s' h' u' hr => by simpa using hj l s' h' u' hr)
      obtain ⟨N, hN⟩ := this
      exact ⟨N + 1, .inl ⟨pin, b, l, N, by simp, rfl, by simpa using hN⟩⟩

theorem doesL_go {q : Chans X B} {g : Gen X B} {k : Nat → Main D X B α} {l : List B} {n : Nat} (hp : Holds φ pin h) (hg : g.out pin [] = some (l, n))
    (hk : DoesL φ Q (q ++ [some (pin, l)]) (k q.length) h) : DoesL φ Q q (.go g k) h := by
  obtain ⟨N, hN⟩ := hk
  exact ⟨N + n + 1, pin, l, n, N, hp, hg, rfl, hN⟩

/-! ## Scripts -/

/-- A script: calls as in histories, reads (`TOp`), and loops `for e := range trees[i].Enumerate() { body(e); if stop(e) { break } }`. -/
inductive BScript (O K E : Type) where
  | done
  | call (op : SOp O) (rest : BScript O K E)
  | read (i : Nat) (k : K) (rest : BScript O K E)
  | each (i : Nat) (body : E → BScript O K E) (brk : E → Bool) (rest : BScript O K E)

/-- The script as code of a caller.  The state is the answers of the reads so far and the roots. -/
def BScript.main (I : OImpl D O R) (Rd : K → R → Prog D A) (Lp : Loop D R B E) : BScript O K E → List (Option A) × List R →
    (List (Option A) × List R → Main D (Cell D) B α) → Main D (Cell D) B α
  | .done, s, k => k s
  | .call op t, s, k => .prog (stepP I s.2 op) fun rs => t.main I Rd Lp (s.1, rs) k
  | .read i q t, s, k => match s.2[i]? with
    | none => t.main I Rd Lp (s.1 ++ [none], s.2) k
    | some r => .prog (Rd q r) fun a => t.main I Rd Lp (s.1 ++ [some a], s.2) k
  | .each i body brk t, s, k => match s.2[i]? with
    | none => t.main I Rd Lp s k
    | some r => .go (Lp.gen r) fun c => Main.rangeB c (fun b s k => .prog (Lp.item b) fun e => (body e).main I Rd Lp s fun s => k s (brk e)) Lp.rounds s fun s =>
      t.main I Rd Lp s k

/-- What a script does: the steps without loops, the origins of the trees with loops that were left, and how many loops were left with entries
still to come. -/
structure Trail (O K : Type) where
  steps : List (TOp O K)
  left : List Nat
  early : Nat

/-- Nothing. -/
def Trail.nil : Trail O K := ⟨[], [], 0⟩

/-- One after the other. -/
def Trail.app (T U : Trail O K) : Trail O K := ⟨T.steps ++ U.steps, T.left ++ U.left, T.early + U.early⟩

/-- The body for the elements of a list in order, up to the first where it stops; `r` is the number of elements then still to come. -/
def BRounds (body : E → Book O → Trail O K → Prop) (brk : E → Bool) : List E → Book O → Trail O K → Option Nat → Prop
  | [], _, T, r => T = .nil ∧ r = none
  | e :: es, b, T, r => ∃ T1, body e b T1 ∧
    if brk e then T = T1 ∧ r = some es.length else ∃ T2, BRounds body brk es (b.after T1.steps) T2 r ∧ T = T1.app T2

/-- A loop over a tree of origin `o` that was left (or not). -/
def leaving (o : Nat) : Option Nat → Trail O K
  | none => .nil
  | some r => ⟨[], [o], if r = 0 then 0 else 1⟩

/-- The steps without loops: a loop runs over the entries (`L`) the tree has when the loop starts, up to the first where it stops. -/
def BScript.Unrolls (L : List O → List E → Prop) : BScript O K E → Book O → Trail O K → Prop
  | .done, _, T => T = .nil
  | .call op t, b, T => ∃ U, T = ⟨.call op :: U.steps, U.left, U.early⟩ ∧ t.Unrolls L (b.step op) U
  | .read i q t, b, T => ∃ U, T = ⟨.read i q :: U.steps, U.left, U.early⟩ ∧ t.Unrolls L b U
  | .each i body brk t, b, T => match b.vs[i]? with
    | none => t.Unrolls L b T
    | some v => ∃ es T1 r T2, L v.2 es ∧ BRounds (fun e => (body e).Unrolls L) brk es b T1 r ∧ t.Unrolls L (b.after T1.steps) T2 ∧ T = (T1.app (leaving v.1 r)).app T2

/-- The body is legal in every round. -/
def BRoundsLegal (run : E → Book O → Trail O K → Prop) (brk : E → Bool) (legal : E → List Nat → Book O → Nat → Prop) : List E → List Nat → Book O → Nat → Prop
  | [], _, _, _ => True
  | e :: es, busy, b, m => legal e busy b m ∧ (brk e = false → ∀ T, run e b T → BRoundsLegal run brk legal es (T.left ++ busy) (b.after T.steps) (m + T.steps.length))

/-- A script may do what histories may do, except calls in place on a tree that has a common origin with one that a loop around the
call runs over, or with one whose loop was left before.  `m` steps have been made; how many there may be is given by `N`. -/
def BScript.Legal (ok iok : List O → O → Prop) (L : List O → List E → Prop) (N : Nat → Prop) : BScript O K E → List Nat → Book O → Nat → Prop
  | .done, _, _, _ => True
  | .call op t, busy, b, m => N (m + 1) ∧ b.Legal2 ok iok op ∧ NotBusy busy b op ∧ t.Legal ok iok L N busy (b.step op) (m + 1)
  | .read _ _ t, busy, b, m => t.Legal ok iok L N busy b (m + 1)
  | .each i body brk t, busy, b, m => match b.vs[i]? with
    | none => t.Legal ok iok L N busy b m
    | some v => ∀ es, L v.2 es → BRoundsLegal (fun e => (body e).Unrolls L) brk (fun e => (body e).Legal ok iok L N) es (v.1 :: busy) b m ∧
      ∀ T r, BRounds (fun e => (body e).Unrolls L) brk es b T r → t.Legal ok iok L N ((leaving (O := O) (K := K) v.1 r).left ++ T.left ++ busy) (b.after T.steps) (m + T.steps.length)

theorem Walk.widen {q : Chans (Cell D) B} {Z : Nat → Addr → Prop} {busy busy' : List Nat} (hq : Walk q Z busy) (hb : ∀ o ∈ busy, o ∈ busy') : Walk q Z busy' := by
  intro p l a hp ha
  obtain ⟨o, ho, h⟩ := hq p l a hp ha
  exact ⟨o, hb o ho, h⟩

theorem bscript_does {I : OImpl D O R} {N : Nat → Prop} (hI : ∀ n, N n → I.Lawful n) (Rd : K → R → Prog D A) (P : K → List O → A → Prop)
    (hR : ∀ n, N n → ∀ k h r l F, l.length ≤ n → I.Obj h r l F → wp (fun _ => False) (Rd k r) (fun x h' => h' = h ∧ P k l x) h)
    {Lp : Loop D R B E} {L : List O → List E → Prop} (hL : ∀ n, N n → Lp.Lawful I L n) {Q : α → Nat → Heap D → Prop} (sc : BScript O K E) :
    ∀ {busy : List Nat} {b : Book O} {m : Nat} {h : Heap D} {ans : List (Option A)} {rs : List R} {Z : Nat → Addr → Prop} {q : Chans (Cell D) B}
      {k : List (Option A) × List R → Main D (Cell D) B α},
      sc.Legal I.cowOk I.inpOk L N busy b m → (∃ m0, m0 ≤ m ∧ (∃ n, m0 ≤ n ∧ N n) ∧ ZInv I 0 0 m0 h rs b Z) → Walk q Z busy →
      (∀ T xs rs' h' Z' u, sc.Unrolls L b T → b.Answers P T.steps xs → (∃ m0, m0 ≤ m + T.steps.length ∧ (∃ n, m0 ≤ n ∧ N n) ∧ ZInv I 0 0 m0 h' rs' (b.after T.steps) Z') →
        (∀ o x, Z o x → Z' o x) → Stays busy Z h h' → Walk u Z' T.left → stuckIn u = T.early → DoesL id Q (q ++ u) (k (ans ++ xs, rs')) h') →
      DoesL id Q q (sc.main I Rd Lp (ans, rs) k) h := by
  induction sc with
  | done =>
    intro busy b m h ans rs Z q k _ hz hq hk
    have := hk .nil [] rs h Z [] rfl rfl (by simpa [Book.after, Trail.nil] using hz) (fun _ _ h => h) (fun _ _ _ _ => rfl) (fun _ _ _ h => by simp at h) rfl
    simpa [BScript.main] using this
  | call op t ih =>
    rintro busy b m h ans rs Z q k ⟨l1, l2, l3, l4⟩ ⟨m0, m1, m2, hz⟩ hq hk
    have hz' := hz
    obtain ⟨T, hg, _, _, _, _, h4, h5⟩ := hz'
    refine doesL_prog (wp_frame (zstep (hI _ l1) (by omega) hz op l2)) (hq.avoids h4 h5 l3) ?_
    rintro rs' h' ⟨⟨Z', hz', hs⟩, _, fr, _⟩
    have st : Stays busy Z h h' := by
      intro o ho a ha
      refine fr a (h4 o a ha).1 ?_
      rintro (hw | ⟨i, x, v, rfl, hv, hw⟩)
      · have := (h4 o a ha).1; omega
      · rw [h5 _ _ a ha hw] at ho
        exact l3 v hv ho
    refine ih l4 ⟨m0 + 1, by omega, ⟨m + 1, by omega, l1⟩, hz'⟩ (hq.mono hs) ?_
    rintro T xs rs2 h2 Z2 u hu ha ⟨m3, m4, m5, hz2⟩ hs2 st2 hw2 hn2
    exact hk ⟨.call op :: T.steps, T.left, T.early⟩ xs rs2 h2 Z2 u ⟨T, rfl, hu⟩ ha ⟨m3, by simp; omega, m5, hz2⟩ (fun o x hx => hs2 o x (hs o x hx))
      (fun o ho a ha => (st2 o ho a (hs o a ha)).trans (st o ho a ha)) hw2 hn2
  | read i kk t ih =>
    rintro busy b m h ans rs Z q k hl ⟨m0, m1, m2, hz⟩ hq hk
    have hz' := hz
    obtain ⟨T, _, _, h1, h2, h3, h4, h5⟩ := hz'
    cases hT : T[i]? with
    | none =>
      have e1 : rs[i]? = none := by simp [h1, hT]
      have e2 : b.vs[i]? = none := by simp [h2, hT]
      simp only [BScript.main, e1]
      refine ih hl ⟨m0, by omega, m2, hz⟩ hq ?_
      rintro T xs rs2 h2 Z2 u hu ha ⟨m3, m4, m5, hz2⟩ hs2 st2 hw2 hn2
      have := hk ⟨.read i kk :: T.steps, T.left, T.early⟩ (none :: xs) rs2 h2 Z2 u ⟨T, rfl, hu⟩ ⟨none, xs, rfl, ha, by simp only [e2]⟩
        ⟨m3, by simp; omega, m5, hz2⟩ hs2 st2 hw2 hn2
      simpa using this
    | some t' =>
      have e1 : rs[i]? = some t'.1.1 := by simp [h1, hT]
      have e2 : b.vs[i]? = some t'.2 := by simp [h2, hT]
      obtain ⟨a1, _, a5, _⟩ := h3 t' (List.mem_of_getElem? hT)
      simp only [BScript.main, e1]
      obtain ⟨n, n1, n2⟩ := m2
      refine doesL_prog (hR n n2 kk h t'.1.1 t'.2.2 t'.1.2 (by omega) a1) (fun _ _ _ _ hf => hf.elim) ?_
      rintro a _ ⟨rfl, hP⟩
      refine ih hl ⟨m0, by omega, ⟨n, n1, n2⟩, hz⟩ hq ?_
      rintro T xs rs2 h2 Z2 u hu ha ⟨m3, m4, m5, hz2⟩ hs2 st2 hw2 hn2
      have := hk ⟨.read i kk :: T.steps, T.left, T.early⟩ (some a :: xs) rs2 h2 Z2 u ⟨T, rfl, hu⟩ ⟨some a, xs, rfl, ha, by simp only [e2]; exact ⟨a, rfl, hP⟩⟩
        ⟨m3, by simp; omega, m5, hz2⟩ hs2 st2 hw2 hn2
      simpa using this
  | each i body brk t ihb iht =>
    rintro busy b m h ans rs Z q k hl ⟨m0, m1, m2, hz⟩ hq hk
    have hz' := hz
    obtain ⟨T, _, _, h1, h2, h3, h4, h5⟩ := hz'
    cases hT : T[i]? with
    | none =>
      have e1 : rs[i]? = none := by simp [h1, hT]
      have e2 : b.vs[i]? = none := by simp [h2, hT]
      simp only [BScript.main, e1]
      simp only [BScript.Legal, e2] at hl
      refine iht hl ⟨m0, m1, m2, hz⟩ hq ?_
      intro T xs rs2 h2 Z2 u hu
      exact hk T xs rs2 h2 Z2 u (by simp only [BScript.Unrolls, e2]; exact hu)
    | some t' =>
      have e1 : rs[i]? = some t'.1.1 := by simp [h1, hT]
      have e2 : b.vs[i]? = some t'.2 := by simp [h2, hT]
      obtain ⟨a1, _, a5, a6⟩ := h3 t' (List.mem_of_getElem? hT)
      obtain ⟨n, n1, n2⟩ := m2
      obtain ⟨bs, es, c, g1, g2, g3, g4, g5⟩ := (hL n n2).ok (by omega) a1
      simp only [BScript.main, e1]
      simp only [BScript.Legal, e2] at hl
      obtain ⟨hl1, hl2⟩ := hl es g3
      -- the walk of this loop's goroutine
      have hpin : ∀ (Z' : Nat → Addr → Prop), (∀ o x, Z o x → Z' o x) → ∀ a, pinOf id h t'.1.2 a ≠ none → Z' t'.2.1 a := by
        intro Z' hs a ha
        exact hs _ _ (a6 a (Classical.byContradiction fun hn => ha (pinOf_none hn)))
      -- the state of the loop: `T0` is the trail so far, `bs1` what is still to come, `busy1` what must not be changed
      let Common : Trail O K → List (Option A) → List (Option A) × List R → Heap D → Chans (Cell D) B → Prop := fun T0 xs0 s h' u =>
        ∃ Z' m0, b.Answers P T0.steps xs0 ∧ s.1 = ans ++ xs0 ∧ m0 ≤ m + T0.steps.length ∧ (∃ n, m0 ≤ n ∧ N n) ∧ ZInv I 0 0 m0 h' s.2 (b.after T0.steps) Z' ∧
        (∀ o x, Z o x → Z' o x) ∧ Stays (t'.2.1 :: busy) Z h h' ∧ Walk u Z' T0.left ∧ stuckIn u = T0.early
      let Inv : List B → List (Option A) × List R → Heap D → Chans (Cell D) B → Prop := fun bs1 s h' u => ∃ es0 es1 T0 xs0, es = es0 ++ es1 ∧ bs1 = bs.drop es0.length ∧
        Common T0 xs0 s h' u ∧
        (∀ T r, BRounds (fun e => (body e).Unrolls L) brk es1 (b.after T0.steps) T r → BRounds (fun e => (body e).Unrolls L) brk es b (T0.app T) r) ∧
        ∃ busy1, (∀ o, o ∈ busy1 ↔ o ∈ T0.left ++ t'.2.1 :: busy) ∧
        BRoundsLegal (fun e => (body e).Unrolls L) brk (fun e => (body e).Legal I.cowOk I.inpOk L N) es1 busy1 (b.after T0.steps) (m + T0.steps.length)
      let Left : List B → List (Option A) × List R → Heap D → Chans (Cell D) B → Prop := fun bs1 s h' u => ∃ T0 xs0,
        Common T0 xs0 s h' u ∧ BRounds (fun e => (body e).Unrolls L) brk es b T0 (some bs1.length)
      -- after the loop, with `o` the channel of the loop
      have after : ∀ T0 xs0 s h' u r (o : Option (Pin (Cell D) × List B)), Common T0 xs0 s h' u → BRounds (fun e => (body e).Unrolls L) brk es b T0 r →
          (∀ (Z' : Nat → Addr → Prop), (∀ o x, Z o x → Z' o x) → Walk [o] Z' (leaving (O := O) (K := K) t'.2.1 r).left) →
          stuckIn [o] = (leaving (O := O) (K := K) t'.2.1 r).early → DoesL id Q (q ++ o :: u) (t.main I Rd Lp s k) h' := by
        rintro T0 xs0 ⟨s1, s2⟩ h' u r o ⟨Z', m3, c3, c4, c5, c6, c7, c8, c9, c10, c11⟩ hr ho1 ho2
        simp only at c4
        subst c4
        refine iht (hl2 T0 r hr) ⟨m3, c5, c6, c7⟩ (Z := Z') ?_ ?_
        · intro p l a hp ha
          rw [List.mem_append, List.mem_cons] at hp
          rcases hp with hp | hp | hp
          · obtain ⟨o', x1, x2⟩ := hq p l a hp ha
            exact ⟨o', by simp [x1], c8 _ _ x2⟩
          · obtain ⟨o', x1, x2⟩ := ho1 Z' c8 p l a (by simp [hp]) ha
            exact ⟨o', by simp [x1], x2⟩
          · obtain ⟨o', x1, x2⟩ := c10 p l a hp ha
            exact ⟨o', by simp [x1], x2⟩
        · rintro T xs rs' h2 Z2 u2 hu ha ⟨m4, m5, m6, hz2⟩ hs2 st2 hw2 hn2
          have hst : (leaving (O := O) (K := K) t'.2.1 r).steps = [] := by cases r <;> rfl
          have key := hk ((T0.app (leaving t'.2.1 r)).app T) (xs0 ++ xs) rs' h2 Z2 (o :: u ++ u2)
            (by simp only [BScript.Unrolls, e2]; exact ⟨es, T0, r, T, g3, hr, hu, rfl⟩)
            (by simp only [Trail.app, hst, List.append_nil]; exact Book.answers_append c3 ha)
            ⟨m4, by simp [Trail.app, hst]; omega, m6, by simp only [Trail.app, hst, List.append_nil]; rw [Book.after_append]; exact hz2⟩
            (fun o x hx => hs2 o x (c8 o x hx)) (fun o ho a hx => (st2 o (by simp [ho]) a (c8 o a hx)).trans (c9 o (by simp [ho]) a hx))
            ?_ ?_
          · simpa using key
          · intro p l a hp ha
            rw [List.cons_append, List.mem_cons, List.mem_append] at hp
            simp only [Trail.app]
            rcases hp with hp | hp | hp
            · obtain ⟨o', x1, x2⟩ := ho1 Z' c8 p l a (by simp [hp]) ha
              exact ⟨o', by simp [x1], hs2 _ _ x2⟩
            · obtain ⟨o', x1, x2⟩ := c10 p l a hp ha
              exact ⟨o', by simp [x1], hs2 _ _ x2⟩
            · obtain ⟨o', x1, x2⟩ := hw2 p l a hp ha
              exact ⟨o', by simp [x1], x2⟩
          · have : stuckIn (o :: u ++ u2) = stuckIn [o] + stuckIn u + stuckIn u2 := by rw [stuckIn_append, show o :: u = [o] ++ u from rfl, stuckIn_append]
            rw [this, ho2, c11, hn2]
            simp only [Trail.app]
            omega
      refine doesL_go (pin := pinOf id h t'.1.2) (pinOf_holds fun a ha => (hI n n2).lt a1 ha) g1 ?_
      refine doesL_rangeB (u := []) (I := Inv) (J := Left) g2 ?_ ?_ ?_ ?_
      · refine ⟨[], es, .nil, [], rfl, by simp, ⟨Z, m0, rfl, by simp, by simpa [Trail.nil] using m1, ⟨n, n1, n2⟩, hz, fun _ _ h => h, fun _ _ _ _ => rfl, fun _ _ _ h => by simp at h, rfl⟩, ?_, ?_⟩
        · intro T r hT
          have : (Trail.nil.app T : Trail O K) = T := by simp [Trail.app, Trail.nil]
          rw [this]; exact hT
        · exact ⟨t'.2.1 :: busy, fun o => by simp [Trail.nil], by simpa [Book.after, Trail.nil] using hl1⟩
      · rintro b1 bs1 ⟨s1, s2⟩ h' u k' ⟨es0, es1, T0, xs0, d1, d2, ⟨Z', m3, c3, c4, c5, c6, c7, c8, c9, c10, c11⟩, d3, busy1, d4, d5⟩ hk1 hk2
        have hj : bs[es0.length]? = some b1 := by
          have := congrArg (fun l => l[0]?) d2
          simpa using this.symm
        cases es1 with
        | nil =>
          have := (List.getElem?_eq_some_iff.1 hj).1
          simp only [List.append_nil] at d1
          rw [g4, d1] at this; omega
        | cons e es1 =>
          have he : es[es0.length]? = some e := by simp [d1]
          have hit := g5 _ _ _ hj he h' fun a ha => c9 t'.2.1 (by simp) a (a6 a ha)
          refine doesL_prog hit (fun _ _ _ _ hf => hf.elim) ?_
          rintro e' _ ⟨rfl, rfl⟩
          simp only at c4
          subst c4
          have hbs : bs1 = bs.drop (es0.length + 1) := by
            have := congrArg List.tail d2
            simpa using this
          have hlen : bs1.length = es1.length := by
            have e4 := congrArg List.length d1
            rw [hbs, List.length_drop]
            simp only [List.length_append, List.length_cons] at e4
            omega
          refine ihb e' d5.1 ⟨m3, c5, c6, c7⟩ (Z := Z') ?_ ?_
          · intro p l a hp ha
            rw [List.mem_append, List.mem_cons] at hp
            rcases hp with hp | hp | hp
            · obtain ⟨o, x1, x2⟩ := hq p l a hp ha
              exact ⟨o, (d4 o).2 (by simp [x1]), c8 _ _ x2⟩
            · cases hp
              exact ⟨t'.2.1, (d4 _).2 (by simp), hpin Z' c8 a ha⟩
            · obtain ⟨o, x1, x2⟩ := c10 p l a hp ha
              exact ⟨o, (d4 o).2 (by simp [x1]), x2⟩
          · rintro T xs rs' h2 Z2 u2 hu ha ⟨m4, m5, m6, hz2⟩ hs2 st2 hw2 hn2
            have com : Common (T0.app T) (xs0 ++ xs) (ans ++ xs0 ++ xs, rs') h2 (u ++ u2) := by
              refine ⟨Z2, m4, Book.answers_append c3 ha, by simp, by simp [Trail.app]; omega, m6, ?_, fun o x hx => hs2 o x (c8 o x hx), ?_, ?_, ?_⟩
              · simp only [Trail.app]; rw [Book.after_append]; exact hz2
              · exact fun o ho a hx => (st2 o ((d4 o).2 (by simp only [List.mem_append]; exact .inr ho)) a (c8 o a hx)).trans (c9 o ho a hx)
              · intro p l a hp ha
                rw [List.mem_append] at hp
                simp only [Trail.app]
                rcases hp with hp | hp
                · obtain ⟨o', x1, x2⟩ := c10 p l a hp ha
                  exact ⟨o', by simp [x1], hs2 _ _ x2⟩
                · obtain ⟨o', x1, x2⟩ := hw2 p l a hp ha
                  exact ⟨o', by simp [x1], x2⟩
              · rw [stuckIn_append, c11, hn2]; rfl
            have eq : q ++ some (pinOf id h t'.1.2, bs1) :: u ++ u2 = q ++ some (pinOf id h t'.1.2, bs1) :: (u ++ u2) := by simp
            rw [eq]
            cases hst : brk e' with
            | true =>
              refine hk2 _ _ _ ⟨T0.app T, xs0 ++ xs, com, ?_⟩
              exact d3 T _ ⟨T, hu, by simp [hst, hlen]⟩
            | false =>
              refine hk1 _ _ _ ⟨es0 ++ [e'], es1, T0.app T, xs0 ++ xs, by simp [d1], by simpa using hbs, com, ?_, T.left ++ busy1, ?_, ?_⟩
              · intro T' r hT'
                simp only [Trail.app, Book.after_append] at hT'
                have := d3 (T.app T') r ⟨T, hu, by simp only [hst]; exact ⟨T', hT', rfl⟩⟩
                simpa [Trail.app, Nat.add_assoc] using this
              · intro o
                simp only [Trail.app, List.mem_append, d4]
                constructor
                · rintro (h | h | h) <;> simp [h]
                · rintro ((h | h) | h) <;> simp [h]
              · have := d5.2 hst T hu
                simp only [Trail.app]
                rw [Book.after_append, List.length_append, ← Nat.add_assoc]
                exact this
      · rintro s h' u ⟨es0, es1, T0, xs0, d1, d2, d3, d4, _⟩
        have h0 : es1 = [] := by
          have e3 := congrArg List.length d2
          have e4 := congrArg List.length d1
          simp only [List.length_nil, List.length_drop, List.length_append] at e3 e4
          exact List.eq_nil_of_length_eq_zero (by omega)
        subst h0
        have hr := d4 .nil none ⟨rfl, rfl⟩
        have ht : T0.app .nil = T0 := by simp [Trail.app, Trail.nil]
        rw [ht] at hr
        exact after T0 xs0 s h' u none none d3 hr (fun _ _ _ _ _ h => by simp at h) rfl
      · rintro bs1 s h' u ⟨T0, xs0, d3, hr⟩
        refine after T0 xs0 s h' u _ _ d3 hr (fun Z' hs p l a hp ha => ?_) ?_
        · simp only [List.mem_singleton, Option.some.injEq, Prod.mk.injEq] at hp
          rw [hp.1] at ha
          exact ⟨t'.2.1, by simp [leaving], hpin Z' hs a ha⟩
        · cases bs1 <;> rfl

/-- What a caller sees at the end: the reads got the answers of the steps without loops, the trees held are those these steps make, and `w`
loops were left early. -/
def BComes (P : K → List O → A → Prop) (Ob : Heap D → R → List O → Prop) (L : List O → List E → Prop) (b : Book O) (sc : BScript O K E) (x : List (Option A) × List R)
    (w : Nat) (h : Heap D) : Prop :=
  ∃ T, sc.Unrolls L b T ∧ w = T.early ∧ b.Answers P T.steps x.1 ∧ x.2.length = (b.after T.steps).vs.length ∧
    ∀ (i : Nat) r v, x.2[i]? = some r → (b.after T.steps).vs[i]? = some v → Ob h r v.2

/-- After any legal history, a legal script with loops that may be left, in any schedule of the caller and the goroutines. -/
theorem obj_bscript {I : OImpl D O R} {N : Nat → Prop} (hI : ∀ n, N n → I.Lawful n) (ops : List (SOp O)) (hn : N ops.length)
    (hl : (Book.init : Book O).LegalAll2 I.cowOk I.inpOk ops) (Rd : K → R → Prog D A) (P : K → List O → A → Prop) (Ob : Heap D → R → List O → Prop)
    (hR : ∀ n, N n → ∀ k h r l F, l.length ≤ n → I.Obj h r l F → wp (fun _ => False) (Rd k r) (fun x h' => h' = h ∧ P k l x) h)
    (hO : ∀ n, N n → ∀ h r l F, l.length ≤ n → I.Obj h r l F → Ob h r l) {Lp : Loop D R B E} {L : List O → List E → Prop} (hL : ∀ n, N n → Lp.Lawful I L n) (sc : BScript O K E)
    (hs : sc.Legal I.cowOk I.inpOk L N [] (Book.init.exec ops) ops.length) :
    ∃ s, OStore.init.exec I ops = .ok s ∧ Leaves id (sc.main I Rd Lp ([], s.roots) .ret) s.heap (BComes P Ob L (Book.init.exec ops) sc) := by
  obtain ⟨s, e, i1⟩ := oexec_inv (hI _ hn) (oinv_init I) ops (by omega) hl
  obtain ⟨Z, hz⟩ := OInv.zinv (hI _ hn) i1
  rw [Nat.zero_add] at hz
  refine ⟨s, e, ?_⟩
  have main : DoesL id (BComes P Ob L (Book.init.exec ops) sc) [] (sc.main I Rd Lp ([], s.roots) .ret) s.heap := by
    refine bscript_does hI Rd P hR hL sc (m := ops.length) hs ⟨_, by omega, ⟨_, by omega, hn⟩, hz⟩ (fun _ _ _ h => by simp at h) ?_
    rintro T' xs rs' h' Z' u hu ha ⟨m0, _, ⟨n, n1, n2⟩, T, _, _, h1, h2, h3, _⟩ _ _ _ hn2
    refine ⟨0, T', hu, by simpa using hn2, by simpa using ha, by simp [h1, h2], fun i r v hr hv => ?_⟩
    simp only at hr
    rw [h1, List.getElem?_map] at hr
    rw [h2, List.getElem?_map] at hv
    cases hT : T[i]? with
    | none => rw [hT] at hr; cases hr
    | some t =>
      rw [hT] at hr hv
      cases hr; cases hv
      obtain ⟨a1, _, a2, _⟩ := h3 t (List.mem_of_getElem? hT)
      exact hO n n2 _ _ _ _ (Nat.le_trans a2 n1) a1
  obtain ⟨N', hN⟩ := main
  exact leaves_of hN

/-- A script that changes nothing in place, with calls covered after any calls. -/
def BScript.Derives (ok : O → Prop) : BScript O K E → Prop
  | .done => True
  | .call op t => (match op with | .cow _ o => ok o | .inp _ _ => False | _ => True) ∧ t.Derives ok
  | .read _ _ t => t.Derives ok
  | .each _ body _ t => (∀ e, (body e).Derives ok) ∧ t.Derives ok

/-- Such scripts are legal, also where they derive trees from one whose loop was left. -/
theorem BScript.Derives.legal {good : O → Prop} {ok iok : List O → O → Prop} {L : List O → List E → Prop} {N : Nat → Prop} (hok : ∀ l o, good o → ok l o)
    (hN : ∀ n, N n) (sc : BScript O K E) : sc.Derives good → ∀ busy b m, sc.Legal ok iok L N busy b m := by
  induction sc with
  | done => intro _ _ _ _; trivial
  | call op t ih =>
    rintro ⟨h1, h2⟩ busy b m
    refine ⟨hN _, ?_, ?_, ih h2 _ _ _⟩
    · cases op with
      | cow i o => exact fun v _ => hok _ _ h1
      | inp i o => exact h1.elim
      | _ => trivial
    · cases op with
      | inp i o => exact h1.elim
      | _ => trivial
  | read i q t ih => exact fun h busy b m => ih h _ _ _
  | each i body brk t ihb iht =>
    rintro ⟨h1, h2⟩ busy b m
    simp only [BScript.Legal]
    split
    · exact iht h2 _ _ _
    · rename_i v _
      refine fun es _ => ⟨?_, fun T r _ => iht h2 _ _ _⟩
      have : ∀ es busy b m, BRoundsLegal (fun e => (body e).Unrolls L) brk (fun e => (body e).Legal ok iok L N) es busy b m := by
        intro es
        induction es with
        | nil => exact fun _ _ _ => trivial
        | cons e es ih => exact fun busy b m => ⟨ihb e (h1 e) _ _ _, fun _ T _ => ih _ _ _⟩
      exact this _ _ _ _

end Verif.Pipe
