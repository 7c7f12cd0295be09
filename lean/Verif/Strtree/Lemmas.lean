import Verif.Strtree.Model
import Verif.RB.History

namespace Verif.Strtree
open Verif.RB
variable {V : Type} [Inhabited V]

/-- A tree pointer that behaves like root `r` ordered by `cmp`; nil stands for the empty tree. -/
def Like (cmp : Bytes → Bytes → Int) (t : Option (Tree V)) (r : RTree Bytes V) : Prop :=
  match t with
  | none => cmp = compareBytes ∧ r = .nil
  | some t => t.compare = cmp ∧ t.root = r

theorem like_ops {cmp : Bytes → Bytes → Int} {t : Option (Tree V)} {r : RTree Bytes V} (h : Like cmp t r) :
    (∀ q, Get t q = get cmp r q) ∧ Enumerate t = enumerate r ∧ IsEmpty t = r.isNil ∧ root t = r ∧
    (∀ k v r', RB.insert cmp r k v = some r' → ∃ t', Insert t k v = some t' ∧ Like cmp t' r') ∧
    (∀ k, Like cmp (Delete t k).1 (del cmp r k).1 ∧ (Delete t k).2 = (del cmp r k).2) := by
  cases t with
  | none =>
    obtain ⟨rfl, rfl⟩ := h
    refine ⟨fun q => rfl, rfl, rfl, rfl, ?_, ?_⟩
    · intro k v r' h'; simp [Insert, h', Like]
    · intro k; exact ⟨⟨rfl, rfl⟩, rfl⟩
  | some t =>
    obtain ⟨rfl, rfl⟩ := h
    refine ⟨fun q => rfl, rfl, rfl, rfl, ?_, ?_⟩
    · intro k v r' h'; simp [Insert, h', Like]
    · intro k; exact ⟨⟨rfl, rfl⟩, rfl⟩

theorem run_like {cmp : Bytes → Bytes → Int} {t0 : Option (Tree V)} (h0 : Like cmp t0 .nil)
    (hrefl : ∀ k, cmp k k = 0) (ops : List (KOp Bytes V)) :
    ∃ t r, run t0 ops = some t ∧ RB.run cmp ops = some r ∧ Like cmp t r ∧ Balanced r := by
  induction ops with
  | nil => exact ⟨t0, .nil, rfl, rfl, h0, balanced_nil⟩
  | cons op ops ih =>
    obtain ⟨t, r, h1, h2, h3, h4⟩ := ih
    cases op with
    | insert k v =>
      obtain ⟨r', h5, h6⟩ := insert_balanced (cmp := cmp) h4 k v (hrefl k)
      obtain ⟨t', h7, h8⟩ := (like_ops h3).2.2.2.2.1 k v r' h5
      exact ⟨t', r', by simp [run, h1, h7], by simp [RB.run, h2, h5], h8, h6⟩
    | delete k =>
      exact ⟨_, _, by simp [run, h1], by simp [RB.run, h2], ((like_ops h3).2.2.2.2.2 k).1, del_balanced (cmp := cmp) h4 k⟩

end Verif.Strtree
