import Verif.Heap.Lift
import Verif.Heap.Obj

/-!
# Programs that change existing cells in a limited way

`Touch S p h`: run in `h`, the program allocates nothing and every write turns a cell into one related to it by `S`.
-/

namespace Verif.Heap
open Prog
variable {D E α β : Type}

/-- Every write of the run replaces a cell by one in the relation `S`; nothing is allocated. -/
def Prog.Touch (S : Cell D → Cell D → Prop) : Prog D α → Heap D → Prop
  | ret _, _ => True
  | stop _, _ => True
  | read a k, h => ∀ c, h.mem a = some c → (k c).Touch S h
  | write a c k, h => (∃ c0, h.mem a = some c0 ∧ S c0 c) ∧ k.Touch S (h.put a c)
  | alloc _ _, _ => False

/-- Memory with the same cells up to `S`. -/
def Like (S : Cell D → Cell D → Prop) (h h' : Heap D) : Prop :=
  h'.next = h.next ∧ ∀ a, (h.mem a = none → h'.mem a = none) ∧ ∀ c, h.mem a = some c → ∃ c', h'.mem a = some c' ∧ S c c'

variable {S : Cell D → Cell D → Prop}

theorem touch_bind {p : Prog D α} {f : α → Prog D β} {h : Heap D} (hp : p.Touch S h)
    (hf : ∀ x h', p.run h = .ok (x, h') → (f x).Touch S h') : (p >>= f).Touch S h := by
  show (p.bind f).Touch S h
  induction p generalizing h with
  | ret x => exact hf x h rfl
  | stop e => trivial
  | read a k ih =>
    intro c hc
    exact ih c (hp c hc) fun x h' hr => hf x h' (by simp only [run, hc]; exact hr)
  | write a c k ih => exact ⟨hp.1, ih hp.2 fun x h' hr => hf x h' hr⟩
  | alloc c k ih => exact hp.elim

theorem touch_readOnly {p : Prog D α} (ro : p.ReadOnly) (h : Heap D) : p.Touch S h := by
  induction p with
  | ret x => trivial
  | stop e => trivial
  | read a k ih => exact fun c _ => ih c (ro c)
  | write a c k => exact ro.elim
  | alloc c k => exact ro.elim

theorem touch_run (refl : ∀ c, S c c) (trans : ∀ a b c, S a b → S b c → S a c) {p : Prog D α} {h h' : Heap D} {x : α} (hp : p.Touch S h)
    (hr : p.run h = .ok (x, h')) : Like S h h' := by
  induction p generalizing h with
  | ret y => cases hr; exact ⟨rfl, fun a => ⟨id, fun c hc => ⟨c, hc, refl c⟩⟩⟩
  | stop e => cases hr
  | read a k ih =>
    simp only [run] at hr
    cases hm : h.mem a with
    | none => simp [hm] at hr
    | some c => rw [hm] at hr; exact ih c (hp c hm) hr
  | write a c k ih =>
    obtain ⟨⟨c0, e1, e2⟩, hp⟩ := hp
    obtain ⟨l1, l2⟩ := ih hp hr
    refine ⟨l1, fun b => ?_⟩
    by_cases hb : b = a
    · subst hb
      obtain ⟨c', q1, q2⟩ := (l2 b).2 c (by simp)
      refine ⟨fun q => (by rw [e1] at q; cases q), fun d hd => ?_⟩
      rw [e1] at hd; cases hd
      exact ⟨c', q1, trans _ _ _ e2 q2⟩
    · have e : (h.put a c).mem b = h.mem b := by rw [Heap.mem_put, if_neg hb]
      rw [← e]; exact l2 b
  | alloc c k => exact hp.elim

/-- In a larger memory. -/
theorem touch_lift (K : Kind D E) {S' : Cell E → Cell E → Prop} (hS : ∀ c c', S c c' → S' (c.map K.inj) (c'.map K.inj)) {p : Prog D α} {h : Heap E}
    (hp : p.Touch S (K.view h)) : (p.lift K).Touch S' h := by
  induction p generalizing h with
  | ret x => trivial
  | stop e => trivial
  | read a k ih =>
    simp only [Prog.lift, Prog.Touch]
    intro c hc
    split
    · rename_i d hd
      refine ih d (hp d ?_)
      rw [K.view_mem, hc, K.map_cell hd]
    · trivial
  | write a c k ih =>
    obtain ⟨⟨c0, e1, e2⟩, hp⟩ := hp
    refine ⟨⟨_, K.view_mem.1 e1, hS _ _ e2⟩, ih ?_⟩
    rw [K.view_put]; exact hp
  | alloc c k => exact hp.elim

end Verif.Heap
