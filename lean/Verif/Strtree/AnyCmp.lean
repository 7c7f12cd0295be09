import Verif.Strtree.Lemmas
import Verif.RB.AnyCmp

/-! # strtree with a comparison of any kind -/

namespace Verif.Strtree
open Verif.RB
variable {V : Type} [Inhabited V]

/-- strtree/strtree.go:31-46 `Insert`, 48-51 `InplaceInsert`: where the call is after `n` iterations of its loop (strtree/node.go:91-168,
192-236). -/
def InsertAfter (t : Option (Tree V)) (key : Bytes) (value : V) (n : Nat) : InsSt Bytes V :=
  match t with
  | none => insertAfter compareBytes .nil key value n
  | some t => insertAfter t.compare t.root key value n

/-- The call is still in its loop after `n` iterations; the tree it is building has `size` nodes. -/
def Running (t : Option (Tree V)) (key : Bytes) (value : V) (n size : Nat) : Prop :=
  ∃ ctx foc, InsertAfter t key value n = .run ctx foc ∧ (plug foc ctx).size = size

/-- The call has left its loop after at most `n` iterations, with this tree. -/
def Returned (t : Option (Tree V)) (key : Bytes) (value : V) (n : Nat) (t' : Option (Tree V)) : Prop :=
  InsertAfter t key value n = .done (root t')

theorem run_like_any {cmp : Bytes → Bytes → Int} {t0 : Option (Tree V)} (h0 : Like cmp t0 .nil) {ops : List (KOp Bytes V)}
    {t : Option (Tree V)} (h : run t0 ops = some t) : ∃ r, Like cmp t r ∧ Balanced r := by
  induction ops generalizing t with
  | nil => cases h; exact ⟨.nil, h0, balanced_nil⟩
  | cons op ops ih =>
    cases op with
    | insert k v =>
      simp only [run] at h
      cases hr : run t0 ops with
      | none => simp [hr] at h
      | some t1 =>
        simp only [hr, Option.bind_some] at h
        obtain ⟨r, h1, h2⟩ := ih hr
        have hi : ∃ r', RB.insert cmp r k v = some r' ∧ Balanced r' := by
          by_cases hn : r = .nil
          · subst hn
            exact ⟨_, rfl, rfl, 1, (RBal_black rfl).2 ⟨0, rfl, rfl, rfl⟩⟩
          · rcases insert_any (cmp := cmp) h2 hn k v with ⟨_, r', e1, e2, _⟩ | ⟨_, e1, _⟩
            · exact ⟨r', e1, e2⟩
            · exfalso
              cases t1 with
              | none => exact hn h1.2
              | some t1 =>
                obtain ⟨rfl, rfl⟩ := h1
                simp [Insert, e1] at h
        obtain ⟨r', e1, e2⟩ := hi
        obtain ⟨t', e3, e4⟩ := (like_ops h1).2.2.2.2.1 k v r' e1
        rw [h] at e3; cases e3
        exact ⟨r', e4, e2⟩
    | delete k =>
      simp only [run] at h
      cases hr : run t0 ops with
      | none => simp [hr] at h
      | some t1 =>
        simp only [hr, Option.map_some, Option.some.injEq] at h
        subst h
        obtain ⟨r, h1, h2⟩ := ih hr
        exact ⟨_, ((like_ops h1).2.2.2.2.2 k).1, del_balanced (cmp := cmp) h2 k⟩

end Verif.Strtree
