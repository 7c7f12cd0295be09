import Verif.Heap.Obj
import Verif.Heap.Lift
import Verif.Heap.Crash
import Verif.Heap.ToObj

/-!
# Trees of other origins, whatever happens to them

`Stays A C P p`: as long as the program reads cells satisfying `C` at addresses in `A` and gets addresses in `A` when it makes nodes, it
reads and writes only in `A`, writes only cells satisfying `C`, and its result satisfies `P`.  It does not say that the program returns.

With it: in a history where the in-place calls on the trees of some origins are made with exclusive access, these trees are what their own
chains of calls make, whatever the calls on trees of other origins do to those.
-/

namespace Verif.Heap
open Prog
variable {D E O R α β : Type}

/-- See above. -/
def Prog.Stays (A : Addr → Prop) (C : Cell D → Prop) (P : α → Prop) : Prog D α → Prop
  | ret x => P x
  | stop _ => True
  | read a k => A a ∧ ∀ c, C c → (k c).Stays A C P
  | write a c k => A a ∧ C c ∧ k.Stays A C P
  | alloc c k => C c ∧ ∀ a, A a → (k a).Stays A C P

/-- nil or an address in `A`. -/
def InA (A : Addr → Prop) (p : Ptr) : Prop := ∀ a, p = some a → A a

theorem InA.none {A : Addr → Prop} : InA A Option.none := fun _ h => by cases h
theorem InA.some {A : Addr → Prop} {a : Addr} (h : A a) : InA A (Option.some a) := fun _ e => by cases e; exact h
theorem InA.mono {A B : Addr → Prop} (h : ∀ a, A a → B a) {p : Ptr} (hp : InA A p) : InA B p := fun a e => h a (hp a e)

variable {A : Addr → Prop} {C : Cell D → Prop}

theorem stays_bind {P : α → Prop} {Q : β → Prop} {p : Prog D α} {f : α → Prog D β} (hp : p.Stays A C P) (hf : ∀ x, P x → (f x).Stays A C Q) :
    (p >>= f).Stays A C Q := by
  show (p.bind f).Stays A C Q
  induction p with
  | ret x => exact hf x hp
  | stop e => trivial
  | read a k ih => exact ⟨hp.1, fun c hc => ih c (hp.2 c hc)⟩
  | write a c k ih => exact ⟨hp.1, hp.2.1, ih hp.2.2⟩
  | alloc c k ih => exact ⟨hp.1, fun a ha => ih a (hp.2 a ha)⟩

theorem stays_mono {P Q : α → Prop} {p : Prog D α} (hp : p.Stays A C P) (h : ∀ x, P x → Q x) : p.Stays A C Q := by
  induction p with
  | ret x => exact h x hp
  | stop e => trivial
  | read a k ih => exact ⟨hp.1, fun c hc => ih c (hp.2 c hc)⟩
  | write a c k ih => exact ⟨hp.1, hp.2.1, ih hp.2.2⟩
  | alloc c k ih => exact ⟨hp.1, fun a ha => ih a (hp.2 a ha)⟩

theorem stays_ite {P : α → Prop} {b : Prop} [Decidable b] {p q : Prog D α} (hp : b → p.Stays A C P) (hq : ¬ b → q.Stays A C P) :
    (if b then p else q).Stays A C P := by
  split
  · exact hp (by assumption)
  · exact hq (by assumption)

theorem stays_load {P : α → Prop} {n : Ptr} (hn : InA A n) {f : Cell D → Prog D α} (hf : ∀ c, C c → (f c).Stays A C P) : (load n >>= f).Stays A C P := by
  cases n with
  | none => trivial
  | some a => exact ⟨hn a rfl, fun c hc => hf c hc⟩

theorem stays_upd {n : Ptr} (hn : InA A n) {g : Cell D → Cell D} (hg : ∀ c, C c → C (g c)) : (upd n g).Stays A C fun _ => True := by
  cases n with
  | none => trivial
  | some a => exact ⟨hn a rfl, fun c hc => ⟨hn a rfl, hg c hc, trivial⟩⟩

theorem stays_new {c : Cell D} (hc : C c) : (new c).Stays A C A := ⟨hc, fun _ ha => ha⟩

theorem next_le {p : Prog D α} {h h' : Heap D} {x : α} (hr : p.run h = .ok (x, h')) : h.next ≤ h'.next := by
  induction p generalizing h with
  | ret y => cases hr; exact Nat.le_refl _
  | stop e => cases hr
  | read a k ih =>
    simp only [run] at hr
    cases hm : h.mem a with
    | none => simp [hm] at hr
    | some c => rw [hm] at hr; exact ih c hr
  | write a c k ih => exact ih (h := h.put a c) hr
  | alloc c k ih => exact Nat.le_trans (Nat.le_succ _) (ih _ (h := h.push c) hr)

/-- What such a program leaves, if it returns. -/
theorem stays_run {P : α → Prop} {p : Prog D α} (hp : p.Stays A C P) {h h' : Heap D} {x : α} (hr : p.run h = .ok (x, h'))
    (hh : ∀ a c, A a → h.mem a = some c → C c) (hA : ∀ a, h.next ≤ a → a < h'.next → A a) :
    P x ∧ (∀ a c, A a → h'.mem a = some c → C c) ∧ ∀ a, ¬ A a → h'.mem a = h.mem a := by
  induction p generalizing h with
  | ret y => cases hr; exact ⟨hp, hh, fun _ _ => rfl⟩
  | stop e => cases hr
  | read a k ih =>
    simp only [run] at hr
    cases hm : h.mem a with
    | none => simp [hm] at hr
    | some c => rw [hm] at hr; exact ih c (hp.2 c (hh a c hp.1 hm)) hr hh hA
  | write a c k ih =>
    obtain ⟨r1, r2, r3⟩ := ih hp.2.2 (h := h.put a c) hr (fun x d hx hd => by
      rw [Heap.mem_put] at hd
      split at hd
      · cases hd; exact hp.2.1
      · exact hh x d hx hd) hA
    refine ⟨r1, r2, fun x hx => ?_⟩
    rw [r3 x hx, Heap.mem_put, if_neg]
    rintro rfl; exact hx hp.1
  | alloc c k ih =>
    have hn := next_le (p := k h.next) (h := h.push c) hr
    have ha : A h.next := hA _ (Nat.le_refl _) hn
    obtain ⟨r1, r2, r3⟩ := ih h.next (hp.2 _ ha) (h := h.push c) hr (fun x d hx hd => by
      simp only [Heap.push] at hd
      split at hd
      · cases hd; exact hp.1
      · exact hh x d hx hd) (fun x hx => hA x (Nat.le_of_succ_le hx))
    refine ⟨r1, r2, fun x hx => ?_⟩
    rw [r3 x hx]
    simp only [Heap.push]
    rw [if_neg]
    rintro rfl; exact hx ha

/-- In a memory with several types of cells. -/
theorem stays_lift {K : Kind D E} {CE : Cell E → Prop} {P : α → Prop} (h1 : ∀ c d, CE c → K.cell c = some d → C d) (h2 : ∀ d, C d → CE (d.map K.inj))
    {p : Prog D α} (hp : p.Stays A C P) : (p.lift K).Stays A CE P := by
  induction p with
  | ret x => exact hp
  | stop e => trivial
  | read a k ih =>
    simp only [Prog.lift, Prog.Stays]
    refine ⟨hp.1, fun c hc => ?_⟩
    split
    · rename_i d hd; exact ih d (hp.2 d (h1 c d hc hd))
    · trivial
  | write a c k ih => exact ⟨hp.1, h2 c hp.2.1, ih hp.2.2⟩
  | alloc c k ih => exact ⟨h2 c hp.1, fun a ha => ih a (hp.2 a ha)⟩

/-! ## Implementations whose calls stay within what the root leads to -/

/-- `rootIn S r`, `cellIn S c`: the pointers in a root, in a cell lead to addresses in `S`. -/
structure OImpl.Confined (I : OImpl D O R) where
  rootIn : (Addr → Prop) → R → Prop
  cellIn : (Addr → Prop) → Cell D → Prop
  root_mono : ∀ {S S' : Addr → Prop} {r : R}, (∀ a, S a → S' a) → rootIn S r → rootIn S' r
  cell_mono : ∀ {S S' : Addr → Prop} {c : Cell D}, (∀ a, S a → S' a) → cellIn S c → cellIn S' c
  fresh_in : ∀ S, I.fresh.Stays S (cellIn S) (rootIn S)
  cow_in : ∀ S o r, rootIn S r → (I.cow o r).Stays S (cellIn S) (rootIn S)
  inp_in : ∀ S o r, rootIn S r → (I.inp o r).Stays S (cellIn S) (rootIn S)

/-- The calls on trees of the origins `good` are covered ones, and in-place calls on them are made with exclusive access; nothing is said about
the other calls. -/
def Book.LegalOn (good : Nat → Prop) (ok iok : List O → O → Prop) (b : Book O) : SOp O → Prop
  | .cow i o => ∀ v, b.vs[i]? = some v → good v.1 → ok v.2 o
  | .inp i o => ∀ v, b.vs[i]? = some v → good v.1 → iok v.2 o ∧ ∀ j u, j ≠ i → b.vs[j]? = some u → u.1 ≠ v.1
  | _ => True

/-- Invariant: the trees of good origins are as their chains say; the others lie in the set `S`, which no pointer leaves. -/
def CInv (I : OImpl D O R) (Z : I.Confined) (good : Nat → Prop) (m : Nat) (s : OStore D R) (b : Book O) : Prop :=
  ∃ (T : List ((R × (Addr → Prop)) × Nat × List O)) (S : Addr → Prop), s.heap.Ok ∧ (∀ a, S a → a < s.heap.next) ∧ (∀ a c, S a → s.heap.mem a = some c → Z.cellIn S c) ∧
    s.roots = T.map (fun t => t.1.1) ∧ b.vs = T.map (·.2) ∧
    (∀ t ∈ T, good t.2.1 → I.Obj s.heap t.1.1 t.2.2 t.1.2 ∧ t.2.2.length ≤ m ∧ ∀ a, t.1.2 a → ¬ S a) ∧
    (∀ t ∈ T, ¬ good t.2.1 → Z.rootIn S t.1.1 ∧ t.1.2 = fun _ => False) ∧ (∀ t ∈ T, t.2.1 < b.next) ∧
    ∀ t ∈ T, ∀ u ∈ T, t.2.1 ≠ u.2.1 → ∀ x, ¬ (t.1.2 x ∧ u.1.2 x)

theorem bad_run {I : OImpl D O R} (Z : I.Confined) {p : Prog D R} {S : Addr → Prop} {h h' : Heap D} {r : R}
    (hp : ∀ S' : Addr → Prop, (∀ a, S a → S' a) → p.Stays S' (Z.cellIn S') (Z.rootIn S')) (hr : p.run h = .ok (r, h')) (hk : h.Ok) (hb : ∀ a, S a → a < h.next)
    (hc : ∀ a c, S a → h.mem a = some c → Z.cellIn S c) :
    ∃ S' : Addr → Prop, (∀ a, S a → S' a) ∧ (∀ a, S' a → S a ∨ h.next ≤ a) ∧ (∀ a, S' a → a < h'.next) ∧ (∀ a c, S' a → h'.mem a = some c → Z.cellIn S' c) ∧
      Z.rootIn S' r ∧ h'.Ok ∧ h.next ≤ h'.next ∧ ∀ a, a < h.next → ¬ S a → h'.mem a = h.mem a := by
  have hn := next_le hr
  have hs : ∀ a, S a → S a ∨ (h.next ≤ a ∧ a < h'.next) := fun a ha => .inl ha
  obtain ⟨r1, r2, r3⟩ := stays_run (hp _ hs) hr (fun a c ha hm => by
    rcases ha with ha | ⟨ha, _⟩
    · exact Z.cell_mono hs (hc a c ha hm)
    · rw [hk a ha] at hm; cases hm) fun a h1 h2 => .inr ⟨h1, h2⟩
  refine ⟨_, hs, fun a ha => ha.imp id (·.1), fun a ha => ?_, r2, r1, fun a ha => ?_, hn, fun a h1 h2 => r3 a ?_⟩
  · rcases ha with ha | ha
    · exact Nat.lt_of_lt_of_le (hb a ha) hn
    · exact ha.2
  · rw [r3 a ?_]
    · exact hk a (Nat.le_trans hn ha)
    · rintro (k | k)
      · have := hb a k; omega
      · omega
  · rintro (k | k)
    · exact h2 k
    · omega

variable {I : OImpl D O R} {Z : I.Confined} {good : Nat → Prop} {n m : Nat}

/-- The trees after a step on a good tree `t`, of which `p` is the new root. -/
theorem good_after (hI : I.Lawful n) {T : List ((R × (Addr → Prop)) × Nat × List O)} {S : Addr → Prop} {h h' : Heap D} {F : Addr → Prop} {k : Nat}
    (hb : ∀ a, S a → a < h.next) (hc : ∀ a c, S a → h.mem a = some c → Z.cellIn S c) (hn : h.next ≤ h'.next)
    (hm : ∀ a, a < h.next → ¬ F a → h'.mem a = h.mem a) (hF : ∀ a, F a → ¬ S a)
    (h3 : ∀ t ∈ T, good t.2.1 → I.Obj h t.1.1 t.2.2 t.1.2 ∧ t.2.2.length ≤ k ∧ ∀ a, t.1.2 a → ¬ S a) (hd : ∀ t ∈ T, good t.2.1 → ∀ a, t.1.2 a → ¬ F a) :
    (∀ a, S a → a < h'.next) ∧ (∀ a c, S a → h'.mem a = some c → Z.cellIn S c) ∧
      ∀ t ∈ T, good t.2.1 → I.Obj h' t.1.1 t.2.2 t.1.2 ∧ t.2.2.length ≤ k + 1 ∧ ∀ a, t.1.2 a → ¬ S a := by
  refine ⟨fun a ha => Nat.lt_of_lt_of_le (hb a ha) hn, fun a c ha hac => ?_, fun t ht hg => ?_⟩
  · rw [hm a (hb a ha) fun q => hF a q ha] at hac
    exact hc a c ha hac
  · obtain ⟨a1, a2, a3⟩ := h3 t ht hg
    exact ⟨hI.frame a1 hn fun a ha => hm a (hI.lt a1 ha) (hd t ht hg a ha), by omega, a3⟩

theorem cstep_inv (hI : I.Lawful n) (hm : m < n) {s s' : OStore D R} {b : Book O} (h : CInv I Z good m s b) (op : SOp O)
    (hl : b.LegalOn good I.cowOk I.inpOk op) (he : s.step I op = .ok s') : CInv I Z good (m + 1) s' (b.step op) := by
  obtain ⟨T, S, hk, hb, hc, h1, h2, h3, h4, h5, h6⟩ := h
  have weak : CInv I Z good (m + 1) s b :=
    ⟨T, S, hk, hb, hc, h1, h2, fun t ht hg => by obtain ⟨a1, a2, a3⟩ := h3 t ht hg; exact ⟨a1, by omega, a3⟩, h4, h5, h6⟩
  cases op with
  | fresh =>
    simp only [OStore.step] at he
    split at he
    case h_2 => cases he
    rename_i p h' hr
    cases he
    by_cases hg : good b.next
    · have hwp := hI.fresh_ok s.heap
      obtain ⟨p', h'', r1, ⟨F', r2, r4⟩, r5, r6⟩ := wp_run hwp
      rw [hr] at r1; cases r1
      obtain ⟨c1, c2, c3⟩ := good_after (Z := Z) (F := fun _ => False) hI hb hc r5 (fun a ha _ => r6 a ha (by omega)) (fun _ q => q.elim) h3 (fun _ _ _ _ _ q => q)
      refine ⟨T ++ [((p, F'), b.next, [])], S, run_ok hwp hk hr, c1, c2, by simp [h1], by simp [Book.step, h2], ?_, ?_, ?_, ?_⟩
      · intro t ht hgt
        rw [List.mem_append, List.mem_singleton] at ht
        rcases ht with ht | rfl
        · exact c3 t ht hgt
        · exact ⟨r2, by simp, fun a ha q => by have := r4 a ha; have := hb a q; omega⟩
      · intro t ht hgt
        rw [List.mem_append, List.mem_singleton] at ht
        rcases ht with ht | rfl
        · exact h4 t ht hgt
        · exact absurd hg hgt
      · intro t ht
        rw [List.mem_append, List.mem_singleton] at ht
        rcases ht with ht | rfl
        · have := h5 t ht; simp [Book.step]; omega
        · simp [Book.step]
      · have key : ∀ u ∈ T, ∀ x, ¬ (F' x ∧ u.1.2 x) := by
          rintro u hu x ⟨x1, x2⟩
          by_cases hgu : good u.2.1
          · have := hI.lt (h3 u hu hgu).1 x2
            have := r4 x x1
            omega
          · rw [(h4 u hu hgu).2] at x2; exact x2
        intro t ht u hu hne x
        rw [List.mem_append, List.mem_singleton] at ht hu
        rcases ht with ht | rfl
        · rcases hu with hu | rfl
          · exact h6 t ht u hu hne x
          · exact fun q => key t ht x ⟨q.2, q.1⟩
        · rcases hu with hu | rfl
          · exact fun q => key u hu x q
          · exact absurd rfl hne
    · obtain ⟨S', s1, s2, s3, s4, s5, s6, s7, s8⟩ := bad_run Z (fun S' _ => Z.fresh_in S') hr hk hb hc
      refine ⟨T ++ [((p, fun _ => False), b.next, [])], S', s6, s3, s4, by simp [h1], by simp [Book.step, h2], ?_, ?_, ?_, ?_⟩
      · intro t ht hgt
        rw [List.mem_append, List.mem_singleton] at ht
        rcases ht with ht | rfl
        · obtain ⟨a1, a2, a3⟩ := h3 t ht hgt
          refine ⟨hI.frame a1 s7 fun a ha => s8 a (hI.lt a1 ha) (a3 a ha), by omega, fun a ha q => ?_⟩
          rcases s2 a q with q | q
          · exact a3 a ha q
          · have := hI.lt a1 ha; omega
        · exact absurd hgt hg
      · intro t ht hgt
        rw [List.mem_append, List.mem_singleton] at ht
        rcases ht with ht | rfl
        · exact ⟨Z.root_mono s1 (h4 t ht hgt).1, (h4 t ht hgt).2⟩
        · exact ⟨s5, rfl⟩
      · intro t ht
        rw [List.mem_append, List.mem_singleton] at ht
        rcases ht with ht | rfl
        · have := h5 t ht; simp [Book.step]; omega
        · simp [Book.step]
      · intro t ht u hu hne x
        rw [List.mem_append, List.mem_singleton] at ht hu
        rcases ht with ht | rfl
        · rcases hu with hu | rfl
          · exact h6 t ht u hu hne x
          · exact fun q => q.2
        · exact fun q => q.1
  | drop i =>
    cases he
    refine ⟨T.eraseIdx i, S, hk, hb, hc, by simp [h1, map_eraseIdx], by simp [Book.step, h2, map_eraseIdx], ?_, ?_, ?_, ?_⟩
    · intro t ht hg
      obtain ⟨a1, a2, a3⟩ := h3 t (List.mem_of_mem_eraseIdx ht) hg
      exact ⟨a1, by omega, a3⟩
    · exact fun t ht => h4 t (List.mem_of_mem_eraseIdx ht)
    · exact fun t ht => h5 t (List.mem_of_mem_eraseIdx ht)
    · exact fun t ht u hu => h6 t (List.mem_of_mem_eraseIdx ht) u (List.mem_of_mem_eraseIdx hu)
  | cow i o =>
    cases hT : T[i]? with
    | none =>
      have e1 : s.roots[i]? = none := by simp [h1, hT]
      have e2 : b.vs[i]? = none := by simp [h2, hT]
      simp only [OStore.step, e1, Except.ok.injEq] at he
      subst he
      simp only [Book.step, e2]
      exact weak
    | some t =>
      have e1 : s.roots[i]? = some t.1.1 := by simp [h1, hT]
      have e2 : b.vs[i]? = some t.2 := by simp [h2, hT]
      have ht : t ∈ T := List.mem_of_getElem? hT
      simp only [OStore.step, e1] at he
      split at he
      case h_2 => cases he
      rename_i p h' hr
      cases he
      have hbk : b.step (.cow i o) = ⟨b.next, b.vs ++ [(t.2.1, o :: t.2.2)]⟩ := by simp only [Book.step, e2]
      rw [hbk]
      by_cases hg : good t.2.1
      · obtain ⟨a1, a5, a6⟩ := h3 t ht hg
        have hwp := hI.cow_ok t.2.2 o t.1.1 s.heap t.1.2 (by omega) (hl t.2 e2 hg) a1
        obtain ⟨p', h'', r1, ⟨F', r2, r4⟩, r5, r6⟩ := wp_run hwp
        rw [hr] at r1; cases r1
        obtain ⟨c1, c2, c3⟩ := good_after (Z := Z) (F := fun _ => False) hI hb hc r5 (fun a ha _ => r6 a ha (by omega)) (fun _ q => q.elim) h3 (fun _ _ _ _ _ q => q)
        refine ⟨T ++ [((p, F'), t.2.1, o :: t.2.2)], S, run_ok hwp hk hr, c1, c2, by simp [h1], by simp [h2], ?_, ?_, ?_, ?_⟩
        · intro u hu hgu
          rw [List.mem_append, List.mem_singleton] at hu
          rcases hu with hu | rfl
          · exact c3 u hu hgu
          · refine ⟨r2, by simp; omega, fun a ha q => ?_⟩
            rcases r4 a ha with k | k
            · have := hb a q; omega
            · exact a6 a k q
        · intro u hu hgu
          rw [List.mem_append, List.mem_singleton] at hu
          rcases hu with hu | rfl
          · exact h4 u hu hgu
          · exact absurd hg hgu
        · intro u hu
          rw [List.mem_append, List.mem_singleton] at hu
          rcases hu with hu | rfl
          · exact h5 u hu
          · exact h5 t ht
        · have key : ∀ u ∈ T, t.2.1 ≠ u.2.1 → ∀ x, ¬ (F' x ∧ u.1.2 x) := by
            rintro u hu hne x ⟨x1, x2⟩
            by_cases hgu : good u.2.1
            · have k3 := hI.lt (h3 u hu hgu).1 x2
              rcases r4 x x1 with k2 | k2
              · omega
              · exact h6 t ht u hu hne x ⟨k2, x2⟩
            · rw [(h4 u hu hgu).2] at x2; exact x2
          intro u hu v hv hne x
          rw [List.mem_append, List.mem_singleton] at hu hv
          rcases hu with hu | rfl
          · rcases hv with hv | rfl
            · exact h6 u hu v hv hne x
            · exact fun q => key u hu (fun e => hne e.symm) x ⟨q.2, q.1⟩
          · rcases hv with hv | rfl
            · exact key v hv hne x
            · exact absurd rfl hne
      · obtain ⟨S', s1, s2, s3, s4, s5, s6, s7, s8⟩ := bad_run Z (fun S' hs => Z.cow_in S' o t.1.1 (Z.root_mono hs (h4 t ht hg).1)) hr hk hb hc
        refine ⟨T ++ [((p, fun _ => False), t.2.1, o :: t.2.2)], S', s6, s3, s4, by simp [h1], by simp [h2], ?_, ?_, ?_, ?_⟩
        · intro u hu hgu
          rw [List.mem_append, List.mem_singleton] at hu
          rcases hu with hu | rfl
          · obtain ⟨a1, a2, a3⟩ := h3 u hu hgu
            refine ⟨hI.frame a1 s7 fun a ha => s8 a (hI.lt a1 ha) (a3 a ha), by omega, fun a ha q => ?_⟩
            rcases s2 a q with q | q
            · exact a3 a ha q
            · have := hI.lt a1 ha; omega
          · exact absurd hgu hg
        · intro u hu hgu
          rw [List.mem_append, List.mem_singleton] at hu
          rcases hu with hu | rfl
          · exact ⟨Z.root_mono s1 (h4 u hu hgu).1, (h4 u hu hgu).2⟩
          · exact ⟨s5, rfl⟩
        · intro u hu
          rw [List.mem_append, List.mem_singleton] at hu
          rcases hu with hu | rfl
          · exact h5 u hu
          · exact h5 t ht
        · intro u hu v hv hne x
          rw [List.mem_append, List.mem_singleton] at hu hv
          rcases hu with hu | rfl
          · rcases hv with hv | rfl
            · exact h6 u hu v hv hne x
            · exact fun q => q.2
          · exact fun q => q.1
  | inp i o =>
    cases hT : T[i]? with
    | none =>
      have e1 : s.roots[i]? = none := by simp [h1, hT]
      have e2 : b.vs[i]? = none := by simp [h2, hT]
      simp only [OStore.step, e1, Except.ok.injEq] at he
      subst he
      simp only [Book.step, e2]
      exact weak
    | some t =>
      have e1 : s.roots[i]? = some t.1.1 := by simp [h1, hT]
      have e2 : b.vs[i]? = some t.2 := by simp [h2, hT]
      have ht : t ∈ T := List.mem_of_getElem? hT
      have hil : i < T.length := (List.getElem?_eq_some_iff.1 hT).1
      simp only [OStore.step, e1] at he
      split at he
      case h_2 => cases he
      rename_i p h' hr
      cases he
      have hbk : b.step (.inp i o) = ⟨b.next, b.vs.set i (t.2.1, o :: t.2.2)⟩ := by simp only [Book.step, e2]
      rw [hbk]
      by_cases hg : good t.2.1
      · obtain ⟨a1, a5, a6⟩ := h3 t ht hg
        have hl := hl t.2 e2 hg
        have hwp := hI.inp_ok t.2.2 o t.1.1 s.heap t.1.2 (by omega) hl.1 a1
        obtain ⟨p', h'', r1, ⟨F', r2, r4⟩, r5, r6⟩ := wp_run hwp
        rw [hr] at r1; cases r1
        have others : ∀ u ∈ T.set i ((p, F'), t.2.1, o :: t.2.2), u = ((p, F'), t.2.1, o :: t.2.2) ∨ (u ∈ T ∧ t.2.1 ≠ u.2.1) := by
          intro u hu
          obtain ⟨j, hj⟩ := List.mem_iff_getElem?.1 hu
          rw [List.getElem?_set] at hj
          by_cases e : i = j
          · subst e
            simp [hil] at hj; exact .inl hj.symm
          · rw [if_neg e] at hj
            refine .inr ⟨List.mem_of_getElem? hj, ?_⟩
            have := hl.2 j u.2 (fun h => e h.symm) (by simp [h2, hj])
            exact fun h => this h.symm
        have sub : ∀ u, u ∈ T ∧ t.2.1 ≠ u.2.1 → good u.2.1 → I.Obj h' u.1.1 u.2.2 u.1.2 ∧ u.2.2.length ≤ m + 1 ∧ ∀ a, u.1.2 a → ¬ S a := by
          rintro u ⟨hu, hne⟩ hgu
          obtain ⟨b1, b2, b3⟩ := h3 u hu hgu
          refine ⟨hI.frame b1 r5 fun a ha => ?_, by omega, b3⟩
          have := hI.lt b1 ha
          refine r6 a this ?_
          rintro (q | q)
          · exact h6 t ht u hu hne a ⟨q, ha⟩
          · omega
        refine ⟨T.set i ((p, F'), t.2.1, o :: t.2.2), S, run_ok hwp hk hr, fun a ha => Nat.lt_of_lt_of_le (hb a ha) r5, ?_, by simp [h1, List.map_set], by simp [h2, List.map_set], ?_, ?_, ?_, ?_⟩
        · intro a c ha hac
          rw [r6 a (hb a ha) ?_] at hac
          · exact hc a c ha hac
          · rintro (q | q)
            · exact a6 a q ha
            · have := hb a ha; omega
        · intro u hu hgu
          rcases others u hu with rfl | hu
          · refine ⟨r2, by simp; omega, fun a ha q => ?_⟩
            rcases r4 a ha with k | k
            · have := hb a q; omega
            · exact a6 a k q
          · exact sub u hu hgu
        · intro u hu hgu
          rcases others u hu with rfl | hu
          · exact absurd hg hgu
          · exact h4 u hu.1 hgu
        · intro u hu
          rcases others u hu with rfl | hu
          · exact h5 t ht
          · exact h5 u hu.1
        · have key : ∀ u ∈ T, t.2.1 ≠ u.2.1 → ∀ x, ¬ (F' x ∧ u.1.2 x) := by
            rintro u hu hne x ⟨x1, x2⟩
            by_cases hgu : good u.2.1
            · have k3 := hI.lt (h3 u hu hgu).1 x2
              rcases r4 x x1 with k2 | k2
              · omega
              · exact h6 t ht u hu hne x ⟨k2, x2⟩
            · rw [(h4 u hu hgu).2] at x2; exact x2
          intro u hu v hv hne x
          rcases others u hu with rfl | ⟨hu, _⟩
          · rcases others v hv with rfl | ⟨hv, _⟩
            · exact absurd rfl hne
            · exact key v hv hne x
          · rcases others v hv with rfl | ⟨hv, _⟩
            · exact fun q => key u hu (fun e => hne e.symm) x ⟨q.2, q.1⟩
            · exact h6 u hu v hv hne x
      · obtain ⟨S', s1, s2, s3, s4, s5, s6, s7, s8⟩ := bad_run Z (fun S' hs => Z.inp_in S' o t.1.1 (Z.root_mono hs (h4 t ht hg).1)) hr hk hb hc
        have others : ∀ u ∈ T.set i ((p, fun _ => False), t.2.1, o :: t.2.2), u = ((p, fun _ => False), t.2.1, o :: t.2.2) ∨ u ∈ T := by
          intro u hu
          exact (List.mem_or_eq_of_mem_set hu).symm
        refine ⟨T.set i ((p, fun _ => False), t.2.1, o :: t.2.2), S', s6, s3, s4, by simp [h1, List.map_set], by simp [h2, List.map_set], ?_, ?_, ?_, ?_⟩
        · intro u hu hgu
          rcases others u hu with rfl | hu
          · exact absurd hgu hg
          · obtain ⟨a1, a2, a3⟩ := h3 u hu hgu
            refine ⟨hI.frame a1 s7 fun a ha => s8 a (hI.lt a1 ha) (a3 a ha), by omega, fun a ha q => ?_⟩
            rcases s2 a q with q | q
            · exact a3 a ha q
            · have := hI.lt a1 ha; omega
        · intro u hu hgu
          rcases others u hu with rfl | hu
          · exact ⟨s5, rfl⟩
          · exact ⟨Z.root_mono s1 (h4 u hu hgu).1, (h4 u hu hgu).2⟩
        · intro u hu
          rcases others u hu with rfl | hu
          · exact h5 t ht
          · exact h5 u hu
        · intro u hu v hv hne x
          rcases others u hu with rfl | hu
          · exact fun q => q.1
          · rcases others v hv with rfl | hv
            · exact fun q => q.2
            · exact h6 u hu v hv hne x

theorem cinv_init (Z : I.Confined) (good : Nat → Prop) : CInv I Z good 0 OStore.init Book.init :=
  ⟨[], fun _ => False, Heap.ok_empty, fun _ h => h.elim, fun _ _ h => h.elim, rfl, rfl, by simp, by simp, by simp, by simp⟩

/-! ## Histories in which callers recover from panics -/

theorem crash_next_le {p : Prog D α} {h h' : Heap D} {e : Err} (hr : p.crash h = some (e, h')) : h.next ≤ h'.next := by
  induction p generalizing h with
  | ret y => cases hr
  | stop e => cases hr; exact Nat.le_refl _
  | read a k ih =>
    simp only [crash] at hr
    cases hm : h.mem a with
    | none => rw [hm] at hr; cases hr; exact Nat.le_refl _
    | some c => rw [hm] at hr; exact ih c hr
  | write a c k ih => exact ih (h := h.put a c) hr
  | alloc c k ih => exact Nat.le_trans (Nat.le_succ _) (ih _ (h := h.push c) hr)

/-- What a program that stays within `A` leaves, if it panics. -/
theorem stays_crash {P : α → Prop} {p : Prog D α} (hp : p.Stays A C P) {h h' : Heap D} {e : Err} (hr : p.crash h = some (e, h'))
    (hh : ∀ a c, A a → h.mem a = some c → C c) (hA : ∀ a, h.next ≤ a → a < h'.next → A a) :
    (∀ a c, A a → h'.mem a = some c → C c) ∧ ∀ a, ¬ A a → h'.mem a = h.mem a := by
  induction p generalizing h with
  | ret y => cases hr
  | stop e => cases hr; exact ⟨hh, fun _ _ => rfl⟩
  | read a k ih =>
    simp only [crash] at hr
    cases hm : h.mem a with
    | none => rw [hm] at hr; cases hr; exact ⟨hh, fun _ _ => rfl⟩
    | some c => rw [hm] at hr; exact ih c (hp.2 c (hh a c hp.1 hm)) hr hh hA
  | write a c k ih =>
    obtain ⟨r2, r3⟩ := ih hp.2.2 (h := h.put a c) hr (fun x d hx hd => by
      rw [Heap.mem_put] at hd
      split at hd
      · cases hd; exact hp.2.1
      · exact hh x d hx hd) hA
    refine ⟨r2, fun x hx => ?_⟩
    rw [r3 x hx, Heap.mem_put, if_neg]
    rintro rfl; exact hx hp.1
  | alloc c k ih =>
    have hn := crash_next_le (p := k h.next) (h := h.push c) hr
    have ha : A h.next := hA _ (Nat.le_refl _) hn
    obtain ⟨r2, r3⟩ := ih h.next (hp.2 _ ha) (h := h.push c) hr (fun x d hx hd => by
      simp only [Heap.push] at hd
      split at hd
      · cases hd; exact hp.1
      · exact hh x d hx hd) (fun x hx => hA x (Nat.le_of_succ_le hx))
    refine ⟨r2, fun x hx => ?_⟩
    rw [r3 x hx]
    simp only [Heap.push]
    rw [if_neg]
    rintro rfl; exact hx ha

theorem bad_crash {I : OImpl D O R} (Z : I.Confined) {p : Prog D R} {S : Addr → Prop} {h h' : Heap D} {e : Err}
    (hp : ∀ S' : Addr → Prop, (∀ a, S a → S' a) → p.Stays S' (Z.cellIn S') (Z.rootIn S')) (hr : p.crash h = some (e, h')) (hk : h.Ok) (hb : ∀ a, S a → a < h.next)
    (hc : ∀ a c, S a → h.mem a = some c → Z.cellIn S c) :
    ∃ S' : Addr → Prop, (∀ a, S a → S' a) ∧ (∀ a, S' a → S a ∨ h.next ≤ a) ∧ (∀ a, S' a → a < h'.next) ∧ (∀ a c, S' a → h'.mem a = some c → Z.cellIn S' c) ∧
      h'.Ok ∧ h.next ≤ h'.next ∧ ∀ a, a < h.next → ¬ S a → h'.mem a = h.mem a := by
  have hn := crash_next_le hr
  have hs : ∀ a, S a → S a ∨ (h.next ≤ a ∧ a < h'.next) := fun a ha => .inl ha
  obtain ⟨r2, r3⟩ := stays_crash (hp _ hs) hr (fun a c ha hm => by
    rcases ha with ha | ⟨ha, _⟩
    · exact Z.cell_mono hs (hc a c ha hm)
    · rw [hk a ha] at hm; cases hm) fun a h1 h2 => .inr ⟨h1, h2⟩
  refine ⟨_, hs, fun a ha => ha.imp id (·.1), fun a ha => ?_, r2, fun a ha => ?_, hn, fun a h1 h2 => r3 a ?_⟩
  · rcases ha with ha | ha
    · exact Nat.lt_of_lt_of_le (hb a ha) hn
    · exact ha.2
  · rw [r3 a ?_]
    · exact hk a (Nat.le_trans hn ha)
    · rintro (k | k)
      · have := hb a k; omega
      · omega
  · rintro (k | k)
    · exact h2 k
    · omega

/-- A call that panicked and whose panic the caller recovered from: the memory is as the call had it at that moment, and the caller holds the
trees it held before.  `none` if the call does not panic. -/
def OStore.recover (I : OImpl D O R) (s : OStore D R) (op : SOp O) : Option (OStore D R) :=
  match op with
  | .cow i o => (s.roots[i]?).bind fun r => match (I.cow o r).crash s.heap with
    | some (.panic, h') => some ⟨h', s.roots⟩
    | _ => none
  | .inp i o => (s.roots[i]?).bind fun r => match (I.inp o r).crash s.heap with
    | some (.panic, h') => some ⟨h', s.roots⟩
    | _ => none
  | _ => none

/-- A history of calls that returned (`true`) and calls that panicked (`false`). -/
def OStore.execR (I : OImpl D O R) (s : OStore D R) : List (SOp O × Bool) → Option (OStore D R)
  | [] => some s
  | (op, true) :: ops => match s.step I op with
    | .ok s' => s'.execR I ops
    | .error _ => none
  | (op, false) :: ops => (s.recover I op).bind fun s' => s'.execR I ops

/-- The calls that returned. -/
def returned (ops : List (SOp O × Bool)) : List (SOp O) := (ops.filter Prod.snd).map Prod.fst

/-- The calls of such a history on trees of the origins `good` are covered ones, and in-place calls on them are made with exclusive access. -/
def Book.LegalAllR (good : Nat → Prop) (ok iok : List O → O → Prop) (b : Book O) : List (SOp O × Bool) → Prop
  | [] => True
  | (op, t) :: ops => b.LegalOn good ok iok op ∧ (if t then b.step op else b).LegalAllR good ok iok ops

theorem crecover_inv (hI : I.Lawful n) (hm : m < n) {s s' : OStore D R} {b : Book O} (h : CInv I Z good m s b) (op : SOp O)
    (hl : b.LegalOn good I.cowOk I.inpOk op) (he : s.recover I op = some s') : CInv I Z good (m + 1) s' b := by
  obtain ⟨T, S, hk, hb, hc, h1, h2, h3, h4, h5, h6⟩ := h
  have key : ∀ (p : Prog D R) h', p.crash s.heap = some (.panic, h') →
      (∀ S' : Addr → Prop, (∀ a, S a → S' a) → p.Stays S' (Z.cellIn S') (Z.rootIn S')) → CInv I Z good (m + 1) ⟨h', s.roots⟩ b := by
    intro p h' hr hp
    obtain ⟨S', s1, s2, s3, s4, s6, s7, s8⟩ := bad_crash Z hp hr hk hb hc
    refine ⟨T, S', s6, s3, s4, h1, h2, fun t ht hg => ?_, fun t ht hg => ⟨Z.root_mono s1 (h4 t ht hg).1, (h4 t ht hg).2⟩, h5, h6⟩
    obtain ⟨a1, a2, a3⟩ := h3 t ht hg
    refine ⟨hI.frame a1 s7 fun a ha => s8 a (hI.lt a1 ha) (a3 a ha), by omega, fun a ha q => ?_⟩
    rcases s2 a q with q | q
    · exact a3 a ha q
    · have := hI.lt a1 ha; omega
  cases op with
  | fresh => cases he
  | drop i => cases he
  | cow i o =>
    cases hT : T[i]? with
    | none =>
      have e1 : s.roots[i]? = none := by simp [h1, hT]
      simp [OStore.recover, e1] at he
    | some t =>
      have e1 : s.roots[i]? = some t.1.1 := by simp [h1, hT]
      have e2 : b.vs[i]? = some t.2 := by simp [h2, hT]
      have ht : t ∈ T := List.mem_of_getElem? hT
      simp only [OStore.recover, e1, Option.bind_some] at he
      split at he
      · rename_i h' hr
        cases he
        by_cases hg : good t.2.1
        · obtain ⟨a1, a5, _⟩ := h3 t ht hg
          obtain ⟨p', h'', r1, _⟩ := wp_run (hI.cow_ok t.2.2 o t.1.1 s.heap t.1.2 (by omega) (hl t.2 e2 hg) a1)
          have := (crash_run _ _ _).2 ⟨_, hr⟩
          rw [r1] at this; cases this
        · exact key _ _ hr fun S' hs => Z.cow_in S' o t.1.1 (Z.root_mono hs (h4 t ht hg).1)
      · cases he
  | inp i o =>
    cases hT : T[i]? with
    | none =>
      have e1 : s.roots[i]? = none := by simp [h1, hT]
      simp [OStore.recover, e1] at he
    | some t =>
      have e1 : s.roots[i]? = some t.1.1 := by simp [h1, hT]
      have e2 : b.vs[i]? = some t.2 := by simp [h2, hT]
      have ht : t ∈ T := List.mem_of_getElem? hT
      simp only [OStore.recover, e1, Option.bind_some] at he
      split at he
      · rename_i h' hr
        cases he
        by_cases hg : good t.2.1
        · obtain ⟨a1, a5, _⟩ := h3 t ht hg
          obtain ⟨p', h'', r1, _⟩ := wp_run (hI.inp_ok t.2.2 o t.1.1 s.heap t.1.2 (by omega) (hl t.2 e2 hg).1 a1)
          have := (crash_run _ _ _).2 ⟨_, hr⟩
          rw [r1] at this; cases this
        · exact key _ _ hr fun S' hs => Z.inp_in S' o t.1.1 (Z.root_mono hs (h4 t ht hg).1)
      · cases he

theorem cexecR_inv (hI : I.Lawful n) {s s' : OStore D R} {b : Book O} (h : CInv I Z good m s b) (ops : List (SOp O × Bool)) (hm : m + ops.length ≤ n)
    (hl : b.LegalAllR good I.cowOk I.inpOk ops) (he : s.execR I ops = some s') : CInv I Z good (m + ops.length) s' (b.exec (returned ops)) := by
  induction ops generalizing s b m with
  | nil => cases he; exact h
  | cons op ops ih =>
    obtain ⟨op, t⟩ := op
    simp only [List.length_cons] at hm
    rw [List.length_cons, Nat.add_comm _ 1, ← Nat.add_assoc]
    cases t with
    | true =>
      simp only [OStore.execR] at he
      split at he
      · rename_i s1 h1
        exact ih (cstep_inv hI (by omega) h op hl.1 h1) (by omega) hl.2 he
      · cases he
    | false =>
      simp only [OStore.execR] at he
      cases h1 : s.recover I op with
      | none => rw [h1] at he; cases he
      | some s1 =>
        rw [h1] at he
        exact ih (crecover_inv hI (by omega) h op hl.1 h1) (by omega) hl.2 he

/-- The held roots of good origins after a history with recovered panics. -/
theorem recovered_history (hI : I.Lawful n) (Z : I.Confined) (good : Nat → Prop) (ops : List (SOp O × Bool)) (hn : ops.length ≤ n)
    (hl : (Book.init : Book O).LegalAllR good I.cowOk I.inpOk ops) {s : OStore D R} (he : OStore.init.execR I ops = some s) :
    s.roots.length = (Book.init.exec (returned ops)).vs.length ∧
      ∀ (i : Nat) r v, s.roots[i]? = some r → (Book.init.exec (returned ops)).vs[i]? = some v → good v.1 → v.2.length ≤ n ∧ ∃ F, I.Obj s.heap r v.2 F := by
  obtain ⟨T, S, hk, hb, hc, h1, h2, h3, _⟩ := cexecR_inv hI (cinv_init Z good) ops (by omega) hl he
  refine ⟨by simp [h1, h2], fun i r v hr hv hg => ?_⟩
  rw [h1, List.getElem?_map] at hr
  rw [h2, List.getElem?_map] at hv
  cases hT : T[i]? with
  | none => simp [hT] at hr
  | some t =>
    simp only [hT, Option.map_some, Option.some.injEq] at hr hv
    subst hr hv
    obtain ⟨a1, a2, _⟩ := h3 t (List.mem_of_getElem? hT) hg
    exact ⟨by omega, _, a1⟩

/-- And the calls on trees of good origins return. -/
theorem recovered_returns (hI : I.Lawful n) (Z : I.Confined) (good : Nat → Prop) (ops : List (SOp O × Bool)) (hn : ops.length < n)
    (hl : (Book.init : Book O).LegalAllR good I.cowOk I.inpOk ops) {s : OStore D R} (he : OStore.init.execR I ops = some s) (op : SOp O)
    (ho : (Book.init.exec (returned ops)).LegalOn good I.cowOk I.inpOk op)
    (hg : ∀ i o, op = .cow i o ∨ op = .inp i o → ∀ v, (Book.init.exec (returned ops)).vs[i]? = some v → good v.1) : ∃ s', s.step I op = .ok s' := by
  obtain ⟨T, S, hk, hb, hc, h1, h2, h3, _⟩ := cexecR_inv hI (cinv_init Z good) ops (by omega) hl he
  cases op with
  | fresh =>
    obtain ⟨p', h'', r1, _⟩ := wp_run (hI.fresh_ok s.heap)
    exact ⟨_, by simp only [OStore.step, r1]; rfl⟩
  | drop i => exact ⟨_, rfl⟩
  | cow i o =>
    cases hT : T[i]? with
    | none => exact ⟨s, by simp [OStore.step, h1, hT]⟩
    | some t =>
      have e1 : s.roots[i]? = some t.1.1 := by simp [h1, hT]
      have e2 : (Book.init.exec (returned ops)).vs[i]? = some t.2 := by simp [h2, hT]
      have hgt := hg i o (.inl rfl) _ e2
      obtain ⟨a1, a5, _⟩ := h3 t (List.mem_of_getElem? hT) hgt
      obtain ⟨p', h'', r1, _⟩ := wp_run (hI.cow_ok t.2.2 o t.1.1 s.heap t.1.2 (by omega) (ho t.2 e2 hgt) a1)
      exact ⟨_, by simp only [OStore.step, e1, r1]; rfl⟩
  | inp i o =>
    cases hT : T[i]? with
    | none => exact ⟨s, by simp [OStore.step, h1, hT]⟩
    | some t =>
      have e1 : s.roots[i]? = some t.1.1 := by simp [h1, hT]
      have e2 : (Book.init.exec (returned ops)).vs[i]? = some t.2 := by simp [h2, hT]
      have hgt := hg i o (.inr rfl) _ e2
      obtain ⟨a1, a5, _⟩ := h3 t (List.mem_of_getElem? hT) hgt
      obtain ⟨p', h'', r1, _⟩ := wp_run (hI.inp_ok t.2.2 o t.1.1 s.heap t.1.2 (by omega) (ho t.2 e2 hgt).1 a1)
      exact ⟨_, by simp only [OStore.step, e1, r1]; rfl⟩

theorem execR_returned (s : OStore D R) (ops : List (SOp O)) {s' : OStore D R} (h : s.exec I ops = .ok s') : s.execR I (ops.map fun o => (o, true)) = some s' := by
  induction ops generalizing s with
  | nil => cases h; rfl
  | cons op ops ih =>
    simp only [OStore.exec] at h
    split at h
    · rename_i s1 h1
      simp only [List.map_cons, OStore.execR, h1]
      exact ih s1 h
    · cases h

end Verif.Heap
