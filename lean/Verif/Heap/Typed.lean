import Verif.Heap.Tidy
import Verif.Heap.Confine

/-!
# Runs that keep a property of the cells in a set of addresses

`pwpA A G p Q h`: if all addresses the program gets for new nodes are in `A`, then, started in the memory `h`, it returns in a state
satisfying `Q` or panics in a state satisfying `G`.
-/

namespace Verif.Heap
open Prog
variable {D E α β : Type}

/-- The memory a program leaves, with its result if it returned. -/
def Prog.fin : Prog D α → Heap D → Option α × Heap D
  | ret x, h => (some x, h)
  | stop _, h => (none, h)
  | read a k, h => match h.mem a with
    | some c => (k c).fin h
    | none => (none, h)
  | write a c k, h => k.fin (h.put a c)
  | alloc c k, h => (k h.next).fin (h.push c)

theorem fin_of_run {p : Prog D α} {h h' : Heap D} {x : α} (hr : p.run h = .ok (x, h')) : p.fin h = (some x, h') := by
  induction p generalizing h with
  | ret y => cases hr; rfl
  | stop e => cases hr
  | read a k ih =>
    simp only [run] at hr
    simp only [fin]
    cases hm : h.mem a with
    | none => simp [hm] at hr
    | some c => rw [hm] at hr; exact ih c hr
  | write a c k ih => exact ih (h := h.put a c) hr
  | alloc c k ih => exact ih _ (h := h.push c) hr

theorem fin_of_crash {p : Prog D α} {h h' : Heap D} {e : Err} (hr : p.crash h = some (e, h')) : p.fin h = (none, h') := by
  induction p generalizing h with
  | ret y => cases hr
  | stop e => cases hr; rfl
  | read a k ih =>
    simp only [crash] at hr
    simp only [fin]
    cases hm : h.mem a with
    | none => rw [hm] at hr; cases hr; rfl
    | some c => rw [hm] at hr; exact ih c hr
  | write a c k ih => exact ih (h := h.put a c) hr
  | alloc c k ih => exact ih _ (h := h.push c) hr

theorem fin_bind (p : Prog D α) (f : α → Prog D β) (h : Heap D) : (p >>= f).fin h = match p.fin h with
    | (some x, h') => (f x).fin h'
    | (none, h') => (none, h') := by
  show (p.bind f).fin h = _
  induction p generalizing h with
  | ret x => rfl
  | stop e => rfl
  | read a k ih =>
    simp only [Prog.bind, fin]
    cases hm : h.mem a with
    | none => rfl
    | some c => exact ih c h
  | write a c k ih => exact ih _
  | alloc c k ih => exact ih _ _

theorem fin_next_le (p : Prog D α) (h : Heap D) : h.next ≤ (p.fin h).2.next := by
  induction p generalizing h with
  | ret x => exact Nat.le_refl _
  | stop e => exact Nat.le_refl _
  | read a k ih =>
    simp only [fin]
    cases hm : h.mem a with
    | none => exact Nat.le_refl _
    | some c => exact ih c h
  | write a c k ih => exact ih (h.put a c)
  | alloc c k ih => exact Nat.le_trans (Nat.le_succ _) (ih _ (h.push c))

/-- See above. -/
def Prog.pwpA (A : Addr → Prop) (G : Heap D → Prop) : Prog D α → (α → Heap D → Prop) → Heap D → Prop
  | ret x, Q, h => Q x h
  | stop _, _, h => G h
  | read a k, Q, h => (h.mem a = none → G h) ∧ ∀ c, h.mem a = some c → (k c).pwpA A G Q h
  | write a c k, Q, h => k.pwpA A G Q (h.put a c)
  | alloc c k, Q, h => A h.next → (k h.next).pwpA A G Q (h.push c)

variable {A : Addr → Prop} {G : Heap D → Prop} {C : Cell D → Prop}

theorem pwpA_bind {p : Prog D α} {f : α → Prog D β} {Q : β → Heap D → Prop} {h : Heap D} (hp : p.pwpA A G (fun x h' => (f x).pwpA A G Q h') h) : (p >>= f).pwpA A G Q h := by
  show (p.bind f).pwpA A G Q h
  induction p generalizing h with
  | ret x => exact hp
  | stop e => exact hp
  | read a k ih => exact ⟨hp.1, fun c hc => ih c (hp.2 c hc)⟩
  | write a c k ih => exact ih hp
  | alloc c k ih => exact fun ha => ih _ (hp ha)

theorem pwpA_mono {p : Prog D α} {Q Q' : α → Heap D → Prop} {h : Heap D} (hp : p.pwpA A G Q h) (hq : ∀ x h', Q x h' → Q' x h') : p.pwpA A G Q' h := by
  induction p generalizing h with
  | ret x => exact hq _ _ hp
  | stop e => exact hp
  | read a k ih => exact ⟨hp.1, fun c hc => ih c (hp.2 c hc)⟩
  | write a c k ih => exact ih hp
  | alloc c k ih => exact fun ha => ih _ (hp ha)

theorem pwpA_fin {p : Prog D α} {Q : α → Heap D → Prop} {h h' : Heap D} {r : Option α} (hp : p.pwpA A G Q h) (hr : p.fin h = (r, h'))
    (hA : ∀ a, h.next ≤ a → a < h'.next → A a) : (∀ x, r = some x → Q x h') ∧ (r = none → G h') := by
  induction p generalizing h with
  | ret y => cases hr; exact ⟨fun x hx => by cases hx; exact hp, fun h => by cases h⟩
  | stop e => cases hr; exact ⟨fun x hx => (by cases hx), fun _ => hp⟩
  | read a k ih =>
    simp only [fin] at hr
    cases hm : h.mem a with
    | none => rw [hm] at hr; cases hr; exact ⟨fun x hx => (by cases hx), fun _ => hp.1 hm⟩
    | some c => rw [hm] at hr; exact ih c (hp.2 c hm) hr hA
  | write a c k ih => exact ih hp hr hA
  | alloc c k ih =>
    have hn := fin_next_le (k h.next) (h.push c)
    simp only [fin] at hr
    rw [hr] at hn
    exact ih _ (hp (hA _ (Nat.le_refl _) hn)) hr fun x hx => hA x (Nat.le_of_succ_le hx)

theorem stays_fin {P : α → Prop} {p : Prog D α} (hp : p.Stays A C P) {h h' : Heap D} {r : Option α} (hr : p.fin h = (r, h'))
    (hh : ∀ a c, A a → h.mem a = some c → C c) (hA : ∀ a, h.next ≤ a → a < h'.next → A a) :
    (∀ a c, A a → h'.mem a = some c → C c) ∧ ∀ a, ¬ A a → h'.mem a = h.mem a := by
  cases hx : p.run h with
  | ok x =>
    obtain ⟨x, h1⟩ := x
    rw [fin_of_run hx] at hr; cases hr
    exact (stays_run hp hx hh hA).2
  | error e =>
    obtain ⟨h1, hc⟩ := (crash_run _ _ _).1 hx
    rw [fin_of_crash hc] at hr; cases hr
    exact stays_crash hp hc hh hA

theorem pwpA_lift (K : Kind D E) {p : Prog D α} {Q : α → Heap D → Prop} {G' : Heap E → Prop} {h : Heap E} (hp : p.pwpA A G Q (K.view h)) (hG : ∀ h, G (K.view h) → G' h)
    {P : α → Prop} (hk : ∀ a c, A a → h.mem a = some c → ∃ d, K.cell c = some d ∧ C d) (hs : p.Stays A C P) :
    (p.lift K).pwpA A G' (fun x h' => Q x (K.view h')) h := by
  induction p generalizing h with
  | ret x => exact hp
  | stop e => exact hG _ hp
  | read a k ih =>
    simp only [Prog.lift, pwpA]
    refine ⟨fun hm => hG _ (hp.1 (by simp [Kind.view, hm])), fun c hc => ?_⟩
    split
    · rename_i c' hc'
      refine ih c' (hp.2 c' (K.view_mem.2 ?_)) hk (hs.2 c' ?_)
      · rw [hc, K.map_cell hc']
      · obtain ⟨d, h1, h2⟩ := hk a c hs.1 hc
        rw [hc'] at h1; cases h1; exact h2
    · rename_i hc'
      obtain ⟨d, h1, h2⟩ := hk a c hs.1 hc
      rw [hc'] at h1; cases h1
  | write a c k ih =>
    refine ih ?_ (fun x d hx hd => ?_) hs.2.2
    · rw [K.view_put]; exact hp
    · rw [Heap.mem_put] at hd
      split at hd
      · cases hd; exact ⟨c, K.cell_map c, hs.2.1⟩
      · exact hk x d hx hd
  | alloc c k ih =>
    intro ha
    refine ih _ ?_ (fun x d hx hd => ?_) (hs.2 _ ha)
    · rw [K.view_push]; exact hp ha
    · simp only [Heap.push] at hd
      split at hd
      · cases hd; exact ⟨c, K.cell_map c, hs.1⟩
      · exact hk x d hx hd

/-- The cells in `A` satisfy `C`. -/
def Heap.Keeps (A : Addr → Prop) (C : Cell D → Prop) (h : Heap D) : Prop := ∀ a c, A a → h.mem a = some c → C c

theorem Heap.Keeps.put {h : Heap D} (hh : h.Keeps A C) {a : Addr} {c : Cell D} (hc : C c) : (h.put a c).Keeps A C := by
  intro x d hx hd
  rw [Heap.mem_put] at hd
  split at hd
  · cases hd; exact hc
  · exact hh x d hx hd

theorem stays_pwpA {P : α → Prop} {p : Prog D α} (hp : p.Stays A C P) {h : Heap D} (hh : h.Keeps A C) : p.pwpA A (Heap.Keeps A C) (fun x h' => P x ∧ h'.Keeps A C) h := by
  induction p generalizing h with
  | ret x => exact ⟨hp, hh⟩
  | stop e => exact hh
  | read a k ih => exact ⟨fun _ => hh, fun c hc => ih c (hp.2 c (hh a c hp.1 hc)) hh⟩
  | write a c k ih => exact ih hp.2.2 (hh.put hp.2.1)
  | alloc c k ih =>
    intro ha
    refine ih _ (hp.2 _ ha) fun x d hx hd => ?_
    simp only [Heap.push] at hd
    split at hd
    · cases hd; exact hp.1
    · exact hh x d hx hd

theorem pwpA_S {P : α → Prop} {p : Prog D α} {f : α → Prog D β} {Q : β → Heap D → Prop} {h : Heap D} (hp : p.Stays A C P) (hh : h.Keeps A C)
    (hf : ∀ x h', P x → h'.Keeps A C → (f x).pwpA A (Heap.Keeps A C) Q h') : (p >>= f).pwpA A (Heap.Keeps A C) Q h :=
  pwpA_bind (pwpA_mono (stays_pwpA hp hh) fun x h' hx => hf x h' hx.1 hx.2)

theorem pwpA_load {n : Ptr} {f : Cell D → Prog D α} {Q : α → Heap D → Prop} {h : Heap D} (hG : G h)
    (hf : ∀ a c, n = some a → h.mem a = some c → (f c).pwpA A G Q h) : (load n >>= f).pwpA A G Q h := by
  cases n with
  | none => exact hG
  | some a => exact ⟨fun _ => hG, fun c hc => hf a c rfl hc⟩

theorem pwpA_upd {n : Ptr} {g : Cell D → Cell D} {f : Unit → Prog D α} {Q : α → Heap D → Prop} {h : Heap D} (hG : G h)
    (hf : ∀ a c, n = some a → h.mem a = some c → (f ()).pwpA A G Q (h.put a (g c))) : (upd n g >>= f).pwpA A G Q h := by
  cases n with
  | none => exact hG
  | some a => exact ⟨fun _ => hG, fun c hc => hf a c rfl hc⟩

theorem pwpA_load' {a : Addr} {c : Cell D} {f : Cell D → Prog D α} {Q : α → Heap D → Prop} {h : Heap D} (hc : h.mem a = some c)
    (hf : (f c).pwpA A G Q h) : (load (some a) >>= f).pwpA A G Q h :=
  ⟨fun hm => by rw [hc] at hm; (cases hm), fun c' hc' => by rw [hc] at hc'; cases hc'; exact hf⟩

theorem pwpA_upd' {a : Addr} {c : Cell D} {g : Cell D → Cell D} {f : Unit → Prog D α} {Q : α → Heap D → Prop} {h : Heap D} (hc : h.mem a = some c)
    (hf : (f ()).pwpA A G Q (h.put a (g c))) : (upd (some a) g >>= f).pwpA A G Q h :=
  ⟨fun hm => by rw [hc] at hm; (cases hm), fun c' hc' => by rw [hc] at hc'; cases hc'; exact hf⟩

end Verif.Heap
