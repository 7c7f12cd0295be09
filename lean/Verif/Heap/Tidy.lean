import Verif.Heap.Confine

/-!
# What holds of every cell, whatever the shape of the memory

`Tidy G P p`: if all cells read satisfy `G`, so do all cells written and made, and the result satisfies `P`.  `pwp` is about one
run, with the memory at hand, and about what a panic leaves.  Nothing is assumed about how the cells hang together.
-/

namespace Verif.Heap
open Prog
variable {D α β : Type}

/-- All cells satisfy `G`. -/
def Heap.All (G : D → Prop) (h : Heap D) : Prop := ∀ a c, h.mem a = some c → G c.d

theorem Heap.All.put {G : D → Prop} {h : Heap D} (hh : h.All G) {a : Addr} {c : Cell D} (hc : G c.d) : (h.put a c).All G := by
  intro x d hx
  rw [Heap.mem_put] at hx
  split at hx
  · cases hx; exact hc
  · exact hh x d hx

theorem Heap.All.push {G : D → Prop} {h : Heap D} (hh : h.All G) {c : Cell D} (hc : G c.d) : (h.push c).All G := by
  intro x d hx
  simp only [Heap.push] at hx
  split at hx
  · cases hx; exact hc
  · exact hh x d hx

namespace Prog

/-- See above. -/
def Tidy (G : D → Prop) (P : α → Prop) : Prog D α → Prop
  | ret x => P x
  | stop _ => True
  | read _ k => ∀ c : Cell D, G c.d → (k c).Tidy G P
  | write _ c k => G c.d ∧ k.Tidy G P
  | alloc c k => G c.d ∧ ∀ a, (k a).Tidy G P

/-- If the program returns, then in a state satisfying `Q`; if it does not, it leaves one satisfying `B`. -/
def pwp (B : Heap D → Prop) : Prog D α → (α → Heap D → Prop) → Heap D → Prop
  | ret x, Q, h => Q x h
  | stop _, _, h => B h
  | read a k, Q, h => (h.mem a = none → B h) ∧ ∀ c, h.mem a = some c → (k c).pwp B Q h
  | write a c k, Q, h => k.pwp B Q (h.put a c)
  | alloc c k, Q, h => (k h.next).pwp B Q (h.push c)

variable {G : D → Prop} {B : Heap D → Prop}

theorem Tidy.bind {P : α → Prop} {Q : β → Prop} {p : Prog D α} {f : α → Prog D β} (hp : p.Tidy G P) (hf : ∀ x, P x → (f x).Tidy G Q) : (p >>= f).Tidy G Q := by
  show (p.bind f).Tidy G Q
  induction p with
  | ret x => exact hf x hp
  | stop e => trivial
  | read a k ih => exact fun c hc => ih c (hp c hc)
  | write a c k ih => exact ⟨hp.1, ih hp.2⟩
  | alloc c k ih => exact ⟨hp.1, fun a => ih a (hp.2 a)⟩

theorem Tidy.ite {P : α → Prop} {b : Prop} [Decidable b] {p q : Prog D α} (hp : p.Tidy G P) (hq : q.Tidy G P) : (if b then p else q).Tidy G P := by
  split
  · exact hp
  · exact hq

theorem tidy_load (n : Ptr) : (load n : Prog D (Cell D)).Tidy G fun c => G c.d := by
  cases n with
  | none => trivial
  | some a => exact fun c hc => hc

theorem tidy_upd (n : Ptr) {f : Cell D → Cell D} (hf : ∀ c, G c.d → G (f c).d) : (upd n f).Tidy G fun _ => True := by
  cases n with
  | none => trivial
  | some a => exact fun c hc => ⟨hf c hc, trivial⟩

theorem tidy_new {c : Cell D} (hc : G c.d) : (new c).Tidy G fun _ => True := ⟨hc, fun _ => trivial⟩

theorem pwp_bind {p : Prog D α} {f : α → Prog D β} {Q : β → Heap D → Prop} {h : Heap D} : (p >>= f).pwp B Q h ↔ p.pwp B (fun x h' => (f x).pwp B Q h') h := by
  show (p.bind f).pwp B Q h ↔ _
  induction p generalizing h with
  | ret x => rfl
  | stop e => exact Iff.rfl
  | read a k ih => simp only [Prog.bind, pwp, ih]
  | write a c k ih => simp only [Prog.bind, pwp, ih]
  | alloc c k ih => simp only [Prog.bind, pwp, ih]

theorem pwp_mono {p : Prog D α} {Q Q' : α → Heap D → Prop} {h : Heap D} (hp : p.pwp B Q h) (hq : ∀ x h', Q x h' → Q' x h') : p.pwp B Q' h := by
  induction p generalizing h with
  | ret x => exact hq _ _ hp
  | stop e => exact hp
  | read a k ih => exact ⟨hp.1, fun c hc => ih c (hp.2 c hc)⟩
  | write a c k ih => exact ih hp
  | alloc c k ih => exact ih _ hp

theorem pwp_weak {p : Prog D α} {Q Q' : α → Heap D → Prop} {h : Heap D} (hp : p.pwp B Q h) (hq : ∀ x h', Q x h' → Q' x h') : p.pwp (fun _ => True) Q' h := by
  induction p generalizing h with
  | ret x => exact hq _ _ hp
  | stop e => trivial
  | read a k ih => exact ⟨fun _ => trivial, fun c hc => ih c (hp.2 c hc)⟩
  | write a c k ih => exact ih hp
  | alloc c k ih => exact ih _ hp

theorem pwp_run {p : Prog D α} {Q : α → Heap D → Prop} {h h' : Heap D} {x : α} (hp : p.pwp B Q h) (hr : p.run h = .ok (x, h')) : Q x h' := by
  induction p generalizing h with
  | ret y => cases hr; exact hp
  | stop e => cases hr
  | read a k ih =>
    simp only [run] at hr
    cases hm : h.mem a with
    | none => simp [hm] at hr
    | some c => rw [hm] at hr; exact ih c (hp.2 c hm) hr
  | write a c k ih => exact ih hp hr
  | alloc c k ih => exact ih _ hp hr

theorem pwp_crash {p : Prog D α} {Q : α → Heap D → Prop} {h h' : Heap D} {e : Err} (hp : p.pwp B Q h) (hr : p.crash h = some (e, h')) : B h' := by
  induction p generalizing h with
  | ret y => cases hr
  | stop e => cases hr; exact hp
  | read a k ih =>
    simp only [crash] at hr
    cases hm : h.mem a with
    | none => rw [hm] at hr; cases hr; exact hp.1 hm
    | some c => rw [hm] at hr; exact ih c (hp.2 c hm) hr
  | write a c k ih => exact ih hp hr
  | alloc c k ih => exact ih _ hp hr

theorem Tidy.pwp {P : α → Prop} {p : Prog D α} (hp : p.Tidy G P) {h : Heap D} (hh : h.All G) : p.pwp (Heap.All G) (fun x h' => P x ∧ h'.All G) h := by
  induction p generalizing h with
  | ret x => exact ⟨hp, hh⟩
  | stop e => exact hh
  | read a k ih => exact ⟨fun _ => hh, fun c hc => ih c (hp c (hh a c hc)) hh⟩
  | write a c k ih => exact ih hp.2 (hh.put hp.1)
  | alloc c k ih => exact ih _ (hp.2 _) (hh.push hp.1)

theorem run_load {a : Addr} {c : Cell D} {h : Heap D} (hc : h.mem a = some c) (f : Cell D → Prog D β) : (load (some a) >>= f).run h = (f c).run h := by
  rw [run_bind]
  simp only [load, run, hc]

end Prog

/-! ## Memories with several types of cells -/

variable {E O R : Type} (K : Kind D E)

/-- A property of the cells of one type. -/
def Kind.Only (G : D → Prop) (e : E) : Prop := ∀ d, K.prj e = some d → G d

theorem Kind.all_view {G : D → Prop} {h : Heap E} : (K.view h).All G ↔ h.All (K.Only G) := by
  constructor
  · intro ha a c hc d hd
    refine ha a ⟨d, c.c0, c.c1⟩ (K.view_mem.2 ?_)
    rw [hc]
    cases c
    simp only [Cell.map, Option.some.injEq, Cell.mk.injEq, and_true]
    exact K.inj_prj _ _ hd
  · intro ha a c hc
    exact ha a _ (K.view_mem.1 hc) c.d (K.prj_inj _)

theorem pwp_lift {p : Prog D α} {B' : Heap D → Prop} {B : Heap E → Prop} {Q : α → Heap D → Prop} {h : Heap E} (hp : p.pwp B' Q (K.view h))
    (hB : ∀ h', B' (K.view h') → B h') : (p.lift K).pwp B (fun x h' => Q x (K.view h')) h := by
  induction p generalizing h with
  | ret x => exact hp
  | stop e => exact hB _ hp
  | read a k ih =>
    simp only [Prog.lift, pwp]
    refine ⟨fun hm => hB _ (hp.1 (by simp [Kind.view, hm])), fun c hc => ?_⟩
    split
    · rename_i c' hc'
      refine ih c' (hp.2 c' (K.view_mem.2 ?_))
      rw [hc, K.map_cell hc']
    · rename_i hc'
      exact hB _ (hp.1 (by simp [Kind.view, hc, hc']))
  | write a c k ih =>
    refine ih ?_
    rw [K.view_put]; exact hp
  | alloc c k ih =>
    refine ih _ ?_
    rw [K.view_push]; exact hp

/-- A program over cells of another type. -/
theorem tidy_lift_other {K' : Type} {J : Kind K' E} {G : E → Prop} (hJ : ∀ d, G (J.inj d)) (p : Prog K' α) : (p.lift J).Tidy G fun _ => True := by
  induction p with
  | ret x => trivial
  | stop e => trivial
  | read a k ih =>
    simp only [Prog.lift, Tidy]
    intro c _
    split
    · exact ih _
    · trivial
  | write a c k ih => exact ⟨hJ _, ih⟩
  | alloc c k ih => exact ⟨hJ _, ih⟩

/-! ## Histories -/

/-- If every call keeps a property of all cells, so does a history of calls that return or panic. -/
theorem OStore.execR_all {I : OImpl D O R} {G : D → Prop} {ops : List (SOp O × Bool)} {s s' : OStore D R}
    (hf : ∀ h : Heap D, h.All G → I.fresh.pwp (Heap.All G) (fun _ h' => h'.All G) h)
    (hc : ∀ i o b, (SOp.cow i o, b) ∈ ops → ∀ r (h : Heap D), h.All G → (I.cow o r).pwp (Heap.All G) (fun _ h' => h'.All G) h)
    (hi : ∀ i o b, (SOp.inp i o, b) ∈ ops → ∀ r (h : Heap D), h.All G → (I.inp o r).pwp (Heap.All G) (fun _ h' => h'.All G) h)
    (hs : s.heap.All G) (he : s.execR I ops = some s') : s'.heap.All G := by
  induction ops generalizing s with
  | nil => cases he; exact hs
  | cons op ops ih =>
    replace ih := fun s1 => ih (fun i o b h => hc i o b (List.mem_cons_of_mem _ h)) (fun i o b h => hi i o b (List.mem_cons_of_mem _ h)) (s := s1)
    obtain ⟨op, b⟩ := op
    cases b with
    | true =>
      simp only [OStore.execR] at he
      split at he
      · rename_i s1 h1
        refine ih s1 ?_ he
        cases op with
        | fresh =>
          simp only [OStore.step] at h1
          split at h1
          · rename_i hr; cases h1; exact pwp_run (Q := fun _ h' => h'.All G) (hf _ hs) hr
          · cases h1
        | drop i => cases h1; exact hs
        | cow i o =>
          simp only [OStore.step] at h1
          split at h1
          · cases h1; exact hs
          · split at h1
            · rename_i hr; cases h1; exact pwp_run (Q := fun _ h' => h'.All G) (hc i o _ List.mem_cons_self _ _ hs) hr
            · cases h1
        | inp i o =>
          simp only [OStore.step] at h1
          split at h1
          · cases h1; exact hs
          · split at h1
            · rename_i hr; cases h1; exact pwp_run (Q := fun _ h' => h'.All G) (hi i o _ List.mem_cons_self _ _ hs) hr
            · cases h1
      · cases he
    | false =>
      simp only [OStore.execR, Option.bind_eq_some_iff] at he
      obtain ⟨s1, h1, he⟩ := he
      refine ih s1 ?_ he
      cases op with
      | fresh => cases h1
      | drop i => cases h1
      | cow i o =>
        simp only [OStore.recover, Option.bind_eq_some_iff] at h1
        obtain ⟨r, _, h1⟩ := h1
        split at h1
        · rename_i hr; cases h1; exact pwp_crash (B := Heap.All G) (hc i o _ List.mem_cons_self _ _ hs) hr
        · cases h1
      | inp i o =>
        simp only [OStore.recover, Option.bind_eq_some_iff] at h1
        obtain ⟨r, _, h1⟩ := h1
        split at h1
        · rename_i hr; cases h1; exact pwp_crash (B := Heap.All G) (hi i o _ List.mem_cons_self _ _ hs) hr
        · cases h1

end Verif.Heap
