import Verif.NumHeap.History
import Verif.Num.Zero
import Verif.Heap.Obj

/-!
# numtree on memory, starting from zero nodes
-/

namespace Verif.NumHeap
open Verif.Heap Prog ATree Num
variable {w : Nat} {V : Type} [LawfulKeySize w] [Inhabited V]

/-- numtree as an implementation on memory where a tree is started by `&Node32{}` or `&Node64{}` (numtree/node32.go:26-37, node64.go:33-44). -/
def zeroImpl (f : Nat) (w : Nat) (V : Type) [LawfulKeySize w] [Inhabited V] : OImpl (ND w V) (NumOp w V) Ptr where
  fresh := do
    let a ← new ⟨⟨0#w, 0, false, default⟩, none, none⟩
    pure (some a)
  cow := (numImpl f w V).cow
  inp := (numImpl f w V).inp
  cowOk _ _ := True
  inpOk _ o := (numImpl f w V).inpOk o
  Obj h r l F := ∃ A, r = ptr A ∧ Rep h A ∧ erase A = runZ l ∧ (∀ x, cnt x A ≤ 1) ∧ F = fun a => 1 ≤ cnt a A

theorem runZ_height (ops : List (NumOp w V)) : (runZ ops).height ≤ w + 1 := by
  rcases (runZ_spec ops).1 with h | h
  · have := h.height_le (by simp)
    simpa using this
  · exact h.height_le

theorem zeroImpl_lawful {f : Nat} (hf : w + 2 ≤ f) (n : Nat) : (zeroImpl f w V).Lawful n where
  fresh_ok h := by
    show wp _ (do
      let a ← new ⟨⟨0#w, 0, false, default⟩, none, none⟩
      pure (some a)) _ h
    refine ⟨_, ⟨.node (h.next, ⟨0#w, 0, false, default⟩) .nil .nil, rfl, ?_, rfl, fun x => ?_, rfl⟩, fun x hx => ?_⟩
    · exact ⟨by simp [Heap.mem_push], by simp, trivial, trivial⟩
    · simp only [cnt]; split <;> simp
    · simp only [cnt] at hx; split at hx
      · omega
      · simp at hx
  lt := by
    rintro h r l F a ⟨A, rfl, h1, _, _, rfl⟩ ha
    exact rep_lt h1 ha
  frame := by
    rintro h h' r l F ⟨A, rfl, h1, h2, h3, rfl⟩ hn hm
    exact ⟨A, rfl, rep_frame h1 hn hm, h2, h3, rfl⟩
  cow_ok := by
    rintro l o r h F hl _ ⟨A, rfl, h1, h2, h3, rfl⟩
    have hh : A.height < f := by
      have := runZ_height (w := w) (V := V) l
      have e := erase_height A
      rw [h2] at e; omega
    cases o with
    | insert k b v =>
      refine wp_conseq (InsertP_spec hh h1 k b v) ?_
      rintro p h' ⟨A', rfl, a1, a2, a3⟩
      refine ⟨_, ⟨A', rfl, a1, by rw [a2, h2]; rfl, fun x => ?_, rfl⟩, fun x hx => ?_⟩
      · have := a3 x; have := h3 x; grind
      · have := a3 x; simp only at hx ⊢; grind
    | delete k b =>
      show wp _ (do
        let x ← DeleteP f (ptr A) k b
        pure x.1) _ h
      rw [wp_bind]
      refine wp_conseq (DeleteP_spec hh h1 k b) ?_
      rintro p h' ⟨A', a0, a1, a2, _, a3⟩
      rw [h2] at a2
      refine ⟨_, ⟨A', a0, a1, congrArg Prod.fst a2, fun x => ?_, rfl⟩, fun x hx => ?_⟩
      · have := a3 x; have := h3 x; grind
      · have := a3 x; simp only at hx ⊢; grind
  inp_ok := by
    rintro l o r h F hl ho ⟨A, rfl, h1, h2, h3, rfl⟩
    have hh : A.height < f := by
      have := runZ_height (w := w) (V := V) l
      have e := erase_height A
      rw [h2] at e; omega
    cases o with
    | insert k b v =>
      refine wp_conseq (InplaceInsertP_spec hh h1 h3 k b v) ?_
      rintro p h' ⟨A', rfl, a1, a2, a3⟩
      refine ⟨_, ⟨A', rfl, a1, by rw [a2, h2]; rfl, fun x => ?_, rfl⟩, fun x hx => ?_⟩
      · have := a3 x; have := h3 x; grind
      · have := a3 x; simp only at hx ⊢; grind
    | delete k b => exact ho.elim

end Verif.NumHeap
