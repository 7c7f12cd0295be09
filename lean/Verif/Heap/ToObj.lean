import Verif.Heap.Session
import Verif.Heap.Client

/-!
# Trees given by their root pointer as objects
-/

namespace Verif.Heap
open Prog ATree
variable {D O : Type}

/-- A tree implementation seen as objects: a root, its nodes, each node once. -/
def Impl.toO (I : Impl D O) : OImpl D O Ptr where
  fresh := pure none
  cow := I.cow
  inp := I.inp
  cowOk _ _ := True
  inpOk _ o := I.inpOk o
  Obj h r l F := ∃ A, r = ptr A ∧ Rep h A ∧ erase A = I.run l ∧ (∀ x, cnt x A ≤ 1) ∧ F = fun a => 1 ≤ cnt a A

theorem Impl.toO_lawful {I : Impl D O} {n : Nat} (hI : I.Lawful n) : I.toO.Lawful n where
  fresh_ok h := ⟨_, ⟨.nil, rfl, trivial, hI.run_nil.symm, by simp, rfl⟩, by simp⟩
  lt := by
    rintro h r l F a ⟨A, rfl, h1, _, _, rfl⟩ ha
    exact rep_lt h1 ha
  frame := by
    rintro h h' r l F ⟨A, rfl, h1, h2, h3, rfl⟩ hn hm
    exact ⟨A, rfl, rep_frame h1 hn hm, h2, h3, rfl⟩
  cow_ok := by
    rintro l o r h F hl _ ⟨A, rfl, h1, h2, h3, rfl⟩
    refine wp_conseq (hI.cow_ok l o A h hl h1 h2 h3) ?_
    rintro p h' ⟨A', rfl, a1, a2, a3⟩
    refine ⟨_, ⟨A', rfl, a1, a2, fun x => ?_, rfl⟩, fun x hx => ?_⟩
    · have := a3 x; have := h3 x; grind
    · have := a3 x; simp only at hx ⊢; grind
  inp_ok := by
    rintro l o r h F hl ho ⟨A, rfl, h1, h2, h3, rfl⟩
    refine wp_conseq (hI.inp_ok l o A h hl ho h1 h2 h3) ?_
    rintro p h' ⟨A', rfl, a1, a2, a3⟩
    refine ⟨_, ⟨A', rfl, a1, a2, fun x => ?_, rfl⟩, fun x hx => ?_⟩
    · have := a3 x; have := h3 x; grind
    · have := a3 x; simp only at hx ⊢; grind

end Verif.Heap
