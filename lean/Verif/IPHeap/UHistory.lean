import Verif.IP.UHistory
import Verif.IPHeap.History
import Verif.IPHeap.Update

/-! # Histories of iptree on memory with `UpdateDescendants` among the calls -/

namespace Verif.IPHeap
open Verif Verif.Heap Verif.Heap.Prog Verif.Heap.ATree Verif.Num Verif.NumHeap Verif.IP

variable {V : Type} [Inhabited V]

/-- A copy-on-write call; updates have no such form. -/
def ucowP (f : Nat) : UOp V → Ptr → Prog (IPD V) Ptr
  | .call o, r => cowP f o r
  | .update _ _, _ => .stop .panic

/-- An in-place call. -/
def uinpP (f : Nat) : UOp V → Ptr → Prog (IPD V) Ptr
  | .call o, r => inpP f o r
  | .update n cb, r => do let _ ← UpdateDescendantsP f (logged cb) r (some n) []; pure r

/-- The copy-on-write calls. -/
def isCall : UOp V → Prop
  | .call _ => True
  | .update _ _ => False

/-- The in-place calls covered after a chain. -/
def uInpOk (st : Bool) (l : List (UOp V)) : UOp V → Prop
  | .call o => st = true ∧ isIns o
  | .update n _ => st = true ∧ updOk l n

/-- iptree with updates as an implementation of histories. -/
def ipuImpl (st : Bool) (f : Nat) : OImpl (IPD V) (UOp V) Ptr where
  fresh := if st then newTreeP none none else pure none
  cow := ucowP f
  inp := uinpP f
  cowOk _ o := isCall o
  inpOk := uInpOk st
  Obj h r ops F := ∃ t, TRep h r t F ∧ Holds t ops ∧ (st = true → t.isSome)

theorem ipuImpl_lawful (st : Bool) {f : Nat} (hf : 66 ≤ f) (n : Nat) : (ipuImpl (V := V) st f).Lawful n where
  fresh_ok h := by
    cases st with
    | false => exact ⟨fun _ => False, ⟨none, ⟨rfl, fun _ => id⟩, holds_start (.inl rfl), by simp⟩, fun _ => False.elim⟩
    | true =>
      refine wp_conseq (wp_mk (h0 := h) (F := fun _ => False) (A := .nil) (P := .nil) ⟨trivial, trivial, by simp⟩ ⟨rep6_nil h, by simp [tot]⟩ (Nat.le_refl _) (by simp) (by simp [tot])) ?_
      rintro r h' ⟨F, h1, h2⟩
      exact ⟨F, ⟨_, h1, holds_start (.inr rfl), fun _ => rfl⟩, fun x hx => (h2 x hx).resolve_right id⟩
  lt := fun ⟨_, hT, _⟩ ha => hT.lt ha
  frame := fun ⟨t, hT, h1, h2⟩ hn hm => ⟨t, hT.frame hn hm, h1, h2⟩
  cow_ok l o r h F _ ho := fun ⟨t, hT, hh, hs⟩ => by
    cases o with
    | update _ _ => exact ho.elim
    | call o =>
      obtain ⟨t', h3, hh'⟩ := holds_call hh o
      have key : wp (fun a => h.next ≤ a) (cowP f o r) (fun r' h' => ∃ F', TRep h' r' t' F' ∧ ∀ x, F' x → h.next ≤ x ∨ F x) h := by
        cases o with
        | insertNet n v => exact InsertNetP_spec hf hT h3
        | insertIP ip v => exact InsertNetP_spec hf hT h3
        | deleteByNet n =>
          simp only [IP.step, Option.map_eq_some_iff] at h3
          obtain ⟨⟨t1, b⟩, h3, rfl⟩ := h3
          unfold cowP
          rw [wp_bind]
          exact wp_conseq (DeleteByNetP_spec hf hT h3) fun _ _ q => q.2
        | deleteByIP ip =>
          simp only [IP.step, Option.map_eq_some_iff] at h3
          obtain ⟨⟨t1, b⟩, h3, rfl⟩ := h3
          unfold cowP
          rw [wp_bind]
          exact wp_conseq (DeleteByNetP_spec hf hT h3) fun _ _ q => q.2
      refine wp_conseq key ?_
      rintro r' h' ⟨F', q1, q2⟩
      refine ⟨F', ⟨t', q1, hh', fun e => ?_⟩, q2⟩
      have := hs e
      cases t with
      | none => simp at this
      | some t => exact step_isSome h3
  inp_ok l o r h F _ ho := fun ⟨t, hT, hh, hs⟩ => by
    have hst : st = true := by cases o <;> exact ho.1
    have := hs hst
    cases t with
    | none => simp at this
    | some t =>
      have ⟨a, _, _, hr, _⟩ := hT
      subst hr
      cases o with
      | update n cb =>
        obtain ⟨t', s', e1, hh'⟩ := holds_update (cb := cb) hh ho.2
        show wp _ (UpdateDescendantsP f (logged cb) (some a) (some n) [] >>= fun _ => pure (some a)) _ h
        rw [wp_bind]
        refine wp_mono (fun x q => .inl q.1) ?_ (UpdateDescendantsP_spec (logged cb) hf hT hh.1 e1)
        rintro _ h' ⟨_, q⟩
        exact ⟨F, ⟨_, q, hh', fun _ => rfl⟩, fun x hx => .inr hx⟩
      | call o =>
        obtain ⟨t', h3, hh'⟩ := holds_call hh o
        have key : wp (fun x => F x ∨ h.next ≤ x) (inpP f o (some a)) (fun r' h' => ∃ F', TRep h' r' t' F' ∧ ∀ x, F' x → h.next ≤ x ∨ F x) h := by
          cases o with
          | insertNet n v =>
            unfold inpP
            rw [wp_bind]
            exact InplaceInsertNetP_spec hf hT h3
          | insertIP ip v =>
            unfold inpP
            rw [wp_bind]
            exact InplaceInsertNetP_spec hf hT h3
          | deleteByNet n => exact ho.2.elim
          | deleteByIP ip => exact ho.2.elim
        refine wp_conseq key ?_
        rintro r' h' ⟨F', q1, q2⟩
        exact ⟨F', ⟨t', q1, hh', fun _ => step_isSome h3⟩, q2⟩

end Verif.IPHeap
