import Verif.Dot.Cost
import Verif.Props.DotHeap
import Verif.Props.Cost

/-!
# Property theorems on the cost of drawing a tree (C108)

`Cost` as in C61 and C62.  The queue and the text are the call's own and not counted.
-/

namespace Verif.Props
open Verif Verif.Heap Verif.Dot Verif.Heap.Prog

theorem answer_dot {D : Type} {h : Heap D} {f : Nat} {A : ATree D} (hA : ATree.Rep h A) (hf : 2 * A.size + 2 ≤ f) :
    ∃ x, answer (DotP f (ATree.ptr A)) h = some x ∧ x.length ≤ 3 * A.size + 1 := by
  obtain ⟨slots, _, hd⟩ := dot_spec (ATree.erase A)
  have hl := dot_length hd
  rw [Dot.erase_size] at hl
  refine ⟨_, answer_of_wp (W := fun _ => False) (wp_conseq (DotP_spec hA hf) ?_), hl⟩
  rintro x h' ⟨e, hx⟩
  rw [hd] at hx
  exact ⟨e, (Option.some.inj hx).symm⟩

section
open Verif.Num Verif.NumHeap
variable {w : Nat} {V : Type} [LawfulKeySize w] [Inhabited V]

/-- C108 (numtree): drawing a tree with entries `l` reads at most twice as many nodes, allocates none, and gives at most six lines
for an entry and one more. -/
theorem C108_numtree {f g : Nat} (hf : w + 2 ≤ f) (hg : 2 ^ (w + 2) ≤ g) (ops : List (SOp (NumOp w V)))
    (hl : (Book.init : Book (NumOp w V)).LegalAll (numImpl f w V).inpOk ops) :
    ∃ s, Store.init.exec (numImpl f w V) ops = .ok s ∧ ∀ (i : Nat) r, s.roots[i]? = some r →
      ∃ l x, answer (EnumerateP f r) s.heap = some l ∧ answer (DotP g r) s.heap = some x ∧
        Cost (DotP g r) s.heap (2 * l.length) 0 ∧ x.length ≤ 6 * l.length + 1 := by
  obtain ⟨s, e, _, h1, h2⟩ := history (numImpl_lawful (V := V) hf ops.length) ops (Nat.le_refl _) hl
  refine ⟨s, e, fun i r hr => ?_⟩
  have hil : i < (Book.init.exec ops).vs.length := by rw [← h1]; exact (List.getElem?_eq_some_iff.mp hr).1
  obtain ⟨A, rfl, a1, a2, a3⟩ := h2 i r _ hr (List.getElem?_eq_getElem hil)
  have a2 : ATree.erase A = Num.run ((Book.init.exec ops).vs[i]).2 := a2
  have hr := run_height (w := w) (V := V) ((Book.init.exec ops).vs[i]).2
  have hh : A.height < f := by
    rw [← a2, NumHeap.erase_height] at hr
    omega
  have hn : A.size ≤ 2 * (Num.Enumerate (ATree.erase A)).length := by
    cases A with
    | nil => simp
    | node d x y =>
      have hs := C08_size (w := w) (V := V) ((Book.init.exec ops).vs[i]).2 (by rw [← a2]; simp [ATree.erase])
      rw [← a2, Dot.erase_size] at hs
      omega
  have hs : 2 * A.size + 2 ≤ g := by
    have h1 := Pipe.size_height (Num.run ((Book.init.exec ops).vs[i]).2)
    have h2 : 2 ^ (Num.run ((Book.init.exec ops).vs[i]).2).height ≤ 2 ^ (w + 1) := Nat.pow_le_pow_right (by omega) hr
    rw [← a2, Dot.erase_size, a2] at h1
    have h3 : 2 ^ (w + 2) = 2 * 2 ^ (w + 1) := by rw [Nat.pow_succ]; omega
    omega
  obtain ⟨x, hx, hxl⟩ := answer_dot a1 hs
  exact ⟨_, x, answer_of_wp (EnumerateP_spec hh a1), hx, (DotP_cost a1 hs).mono hn (Nat.le_refl _), by omega⟩

end

section
open Verif.RB Verif.RBHeap
variable {V : Type} [Inhabited V]

/-- C108 (strtree): drawing a tree with entries `l` reads as many nodes at most, allocates none, and gives at most three lines for an
entry and one more. -/
theorem C108_strtree {cmp : Bytes → Bytes → Int} (hrefl : ∀ k, cmp k k = 0) (ops : List (SOp (KOp Bytes V))) {f : Nat} (hf : 2 * ops.length + 3 ≤ f)
    (hl : (Book.init : Book (KOp Bytes V)).LegalAll (rbImpl cmp f).inpOk ops) :
    ∃ s, Store.init.exec (rbImpl cmp f) ops = .ok s ∧ ∀ (i : Nat) r, s.roots[i]? = some r →
      ∃ l x, answer (enumerateP f r) s.heap = some l ∧ answer (DotP f r) s.heap = some x ∧
        Cost (DotP f r) s.heap l.length 0 ∧ x.length ≤ 3 * l.length + 1 := by
  obtain ⟨s, e, i1, hlen, h2⟩ := client_history (rbImpl_lawful (V := V) (n := ops.length) hrefl (f := f) (by omega)) ops (Nat.le_refl _) hl
  refine ⟨s, e, fun i r hr => ?_⟩
  have hil : i < (Book.init.exec ops).vs.length := by rw [← hlen]; exact (List.getElem?_eq_some_iff.mp hr).1
  obtain ⟨A, rfl, a1, a2, a3, a5⟩ := h2 i r _ hr (List.getElem?_eq_getElem hil)
  have a2 : ATree.erase A = (RB.run cmp ((Book.init.exec ops).vs[i]).2).getD .nil := a2
  obtain ⟨e1, _, hsz⟩ := run_getD (V := V) hrefl ((Book.init.exec ops).vs[i]).2
  rw [← a2] at e1 hsz
  rw [RBHeap.erase_height] at hsz
  have hn := run_size hrefl e1
  rw [Dot.erase_size] at hn
  obtain ⟨x, hx, hxl⟩ := answer_dot (f := f) a1 (by omega)
  refine ⟨_, x, answer_of_wp (enumerateP_spec (by omega) a1), hx, ?_, ?_⟩
  · rw [RB.length_enumerate, Dot.erase_size]; exact DotP_cost a1 (by omega)
  · rw [RB.length_enumerate, Dot.erase_size]; exact hxl

end

section
open Verif.Domain Verif.DL Verif.DLHeap
variable {V : Type} [Inhabited V]

/-- C108 (dltree): as for strtree, and the tree object is read. -/
theorem C108_dltree (st : Bool) (ops : List (SOp (DL.Op V))) {f : Nat} (hf : 2 * ops.length + 3 ≤ f)
    (hl : (Book.init : Book (DL.Op V)).LegalAll2 dlCow (dlInp st) ops) :
    ∃ s, OStore.init.exec (dlImpl st f) ops = .ok s ∧ ∀ (i : Nat) r, s.roots[i]? = some r →
      ∃ l x, answer (RawEnumerateP lm f r) s.heap = some l ∧ answer (dltreeDotP lm f r) s.heap = some x ∧
        Cost (dltreeDotP lm f r) s.heap (l.length + 1) 0 ∧ x.length ≤ 3 * l.length + 1 := by
  obtain ⟨s, e, _, h1, h2⟩ := obj_history (dlImpl_lawful (V := V) st hf) ops (Nat.le_refl _) hl
  refine ⟨s, e, fun i r hr => ?_⟩
  have hil : i < (Book.init.exec ops).vs.length := by rw [← h1]; exact (List.getElem?_eq_some_iff.mp hr).1
  obtain ⟨hn, F, _, A, hL, _, _⟩ := h2 i r _ hr (List.getElem?_eq_getElem hil)
  have hsz := hL.size
  have hx : ∃ x, dltreeDot (treeOf r A) = some x ∧ x.length ≤ 3 * A.size + 1 := by
    cases r with
    | none => exact ⟨_, rfl, by simp⟩
    | some b =>
      obtain ⟨slots, _, hd⟩ := dot_spec (ATree.erase A)
      have hl := dot_length hd
      rw [Dot.erase_size] at hl
      exact ⟨_, hd, hl⟩
  obtain ⟨x, hx, hxl⟩ := hx
  refine ⟨_, x, answer_of_wp (W := fun _ => False) (RawEnumerateP_spec hL (tall_lt (by omega))), ?_, ?_, ?_⟩
  · refine answer_of_wp (W := fun _ => False) (wp_conseq (dltreeDotP_spec hL (by omega)) ?_)
    rintro y h' ⟨e, hy⟩
    rw [hx] at hy
    exact ⟨e, (Option.some.inj hy).symm⟩
  · rw [RB.length_enumerate, Dot.erase_size]
    unfold dltreeDotP
    cases r with
    | none => exact ⟨Nat.zero_le _, Nat.zero_le _⟩
    | some b =>
      simp only [reduceCtorEq, if_false]
      refine Cost.mono (Cost.bind (W := fun _ => False) (m := 1) (n := 0) (m' := A.size) (n' := 0) ?_ ((wp_rootP hL.cell.1).2 (Cost.lift lm.kR (DotP_cost hL.rep (by omega))))) (by omega) (Nat.le_refl _)
      exact Within.cost (by exact rootP_within ..) _
  · rw [RB.length_enumerate, Dot.erase_size]; exact hxl

end

/-! ## Concrete cases -/

section
open Verif.NumHeap

example := C108_numtree (w := 32) (V := Nat) (f := 34) (g := 2 ^ 34) (by decide) (Nat.le_refl _) heapSample heapSample_legal

/-- Two entries and the node that joins them. -/
example : (match Store.init.exec (numImpl 34 32 Nat) heapSample with
    | .ok s => s.roots.drop 5 |>.map fun r => (costs s.heap (DotP (2 ^ 34) r), (answer (EnumerateP 34 r) s.heap).map List.length, (answer (DotP (2 ^ 34) r) s.heap).map List.length)
    | .error _ => []) = [((3, 0), some 2, some 4)] := by decide +kernel
end

section
open Verif.RBHeap

example := C108_strtree (cmp := compareBytes) (V := Nat) (fun x => compareBytes_lawful.refl x) kvSample (f := 33) (by decide) kvSample_legal

/-- Six entries: six nodes read, ten lines. -/
example : (match Store.init.exec (rbImpl compareBytes 33) kvSample with
    | .ok s => s.roots.drop 6 |>.take 1 |>.map fun r => (costs s.heap (DotP 33 r), (answer (enumerateP 33 r) s.heap).map List.length, (answer (DotP 33 r) s.heap).map List.length)
    | .error _ => []) = [((6, 0), some 6, some 10)] := by decide +kernel
end

section
open Verif.DLHeap

example := C108_dltree (V := Nat) true dlSample (f := 30) (by decide) dlSample_legal

example : (match OStore.init.exec (dlImpl true 30) dlSample with
    | .ok s => s.roots.drop 4 |>.take 1 |>.map fun r => (costs s.heap (dltreeDotP lm 30 r), (answer (RawEnumerateP lm 30 r) s.heap).map List.length, (answer (dltreeDotP lm 30 r) s.heap).map List.length)
    | .error _ => []) = [((4, 0), some 3, some 4)] := by decide +kernel
end

end Verif.Props
