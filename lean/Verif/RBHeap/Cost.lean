import Verif.RBHeap.History
import Verif.Heap.Cost

/-!
# Cost of calls on red-black trees
-/

namespace Verif.RBHeap
open Verif.Heap Verif.Heap.Prog Verif.RB

variable {K V : Type}

theorem setChld_within (n : Ptr) (b : Bool) (q : Ptr) : (setChld (K := K) (V := V) n b q).Within 2 0 := within_upd ..
theorem setRedP_within (n : Ptr) (b : Bool) : (setRedP (K := K) (V := V) n b).Within 2 0 := within_upd ..
theorem redP_within (n : Ptr) : (redP (K := K) (V := V) n).Within 1 0 := by unfold redP; within []
theorem isRedP_within (n : Ptr) : (isRedP (K := K) (V := V) n).Within 1 0 := within_ifNotNil (redP_within n)
theorem andP_within {D : Type} (x : Bool) {k : Prog D Bool} {m n : Nat} (h : k.Within m n) : (andP x k).Within m n := by
  unfold andP; split
  · exact h
  · trivial
theorem fullCopy_within (n : Ptr) : (fullCopy (K := K) (V := V) n).Within 1 1 := by unfold fullCopy; within []
theorem colorCopy_within (n : Ptr) (b : Bool) : (colorCopy (K := K) (V := V) n b).Within 1 1 := by unfold colorCopy; within []
theorem single_within (n : Ptr) (dir : Bool) : (single (K := K) (V := V) n dir).Within 10 0 := by
  unfold single; within [setChld_within, setRedP_within]
theorem double_within (n : Ptr) (dir : Bool) : (double (K := K) (V := V) n dir).Within 23 0 := by
  unfold double; within [setChld_within, single_within]
theorem andRed_within (x : Bool) (n : Ptr) : (andP (D := RD K V) x (redP n)).Within 1 0 := andP_within x (redP_within n)
theorem andIsRed_within (x : Bool) (n : Ptr) : (andP (D := RD K V) x (isRedP n)).Within 1 0 := andP_within x (isRedP_within n)
theorem flipCond_within (n : Ptr) : (flipCond (K := K) (V := V) n).Within 3 0 := by
  unfold flipCond; within [redP_within, andRed_within]
theorem copyUnless_within (q cd : Ptr) : (copyUnless (K := K) (V := V) q cd).Within 1 1 := by
  unfold copyUnless; within [fullCopy_within]
theorem flipCow_within (n : Ptr) : (flipCow (K := K) (V := V) n).Within 10 2 := by
  unfold flipCow; within [flipCond_within, setRedP_within, colorCopy_within]
theorem flipInp_within (n : Ptr) : (flipInp (K := K) (V := V) n).Within 11 0 := by
  unfold flipInp; within [flipCond_within, setRedP_within]
theorem rotP_within (gp g p n : Ptr) (b : Bool) : (rotP (K := K) (V := V) gp g p n b).Within 27 0 := by
  unfold rotP; within [single_within, double_within, setChld_within]
theorem fixP_within (gp g p n : Ptr) (b : Bool) : (fixP (K := K) (V := V) gp g p n b).Within 29 0 := by
  unfold fixP; within [redP_within, andIsRed_within, rotP_within]
theorem reC_within (b : Bool) (n : Ptr) (c : Ptr × Ptr) : (reC (K := K) (V := V) b n c).Within 1 0 := by
  unfold reC; within []
theorem finish_within (root n : Ptr) (v : V) : (finish (K := K) root n v).Within 5 0 := by
  unfold finish; within [setRedP_within]

section
variable [Inhabited V]
theorem enterCow_within (key : K) (q cd : Ptr) : (enterCow (V := V) key q cd).Within 11 3 := by
  unfold enterCow; within [copyUnless_within, flipCow_within]
theorem enterInp_within (key : K) (p : Ptr) (dir : Bool) (q : Ptr) : (enterInp (V := V) key p dir q).Within 11 1 := by
  unfold enterInp; within [setChld_within, flipInp_within]
theorem insIter_within (cmp : K → K → Int) (key : K) (s : St) (c : Ptr × Ptr) : (insIter (V := V) cmp key s c).Within 45 3 := by
  unfold insIter; within [enterCow_within, setChld_within, fixP_within, reC_within]
theorem inpIter_within (cmp : K → K → Int) (key : K) (s : St) : (inpIter (V := V) cmp key s).Within 42 1 := by
  unfold inpIter; within [enterInp_within, fixP_within]

theorem insLoopP_within (cmp : K → K → Int) (key : K) (f : Nat) (s : St) (c : Ptr × Ptr) : (insLoopP (V := V) cmp key f s c).Within (45 * f) (3 * f) := by
  induction f generalizing s c with
  | zero => trivial
  | succ f ih => unfold insLoopP; within [insIter_within, ih]

theorem insLoopP_more (cmp : K → K → Int) (key : K) {f f' : Nat} (hf : f ≤ f') (s : St) (c : Ptr × Ptr) :
    More (insLoopP (V := V) cmp key f s c) (insLoopP cmp key f' s c) := by
  induction f generalizing f' s c with
  | zero => exact .fuel _
  | succ f ih =>
    obtain ⟨f', rfl⟩ : ∃ g, f' = g + 1 := ⟨f' - 1, by omega⟩
    have ih := fun s c => ih (f' := f') (by omega) s c
    unfold insLoopP
    more [ih]

theorem inpLoopP_within (cmp : K → K → Int) (key : K) (f : Nat) (s : St) : (inpLoopP (V := V) cmp key f s).Within (42 * f) f := by
  induction f generalizing s with
  | zero => trivial
  | succ f ih => unfold inpLoopP; within [inpIter_within, ih]

theorem inpLoopP_more (cmp : K → K → Int) (key : K) {f f' : Nat} (hf : f ≤ f') (s : St) :
    More (inpLoopP (V := V) cmp key f s) (inpLoopP cmp key f' s) := by
  induction f generalizing f' s with
  | zero => exact .fuel _
  | succ f ih =>
    obtain ⟨f', rfl⟩ : ∃ g, f' = g + 1 := ⟨f' - 1, by omega⟩
    have ih := fun s => ih (f' := f') (by omega) s
    unfold inpLoopP
    more [ih]

variable [Inhabited K]

theorem insertP_within (cmp : K → K → Int) (f : Nat) (n : Ptr) (key : K) (value : V) : (insertP cmp f n key value).Within (45 * f + 5) (3 * f + 1) := by
  unfold insertP; within [insLoopP_within, finish_within]
theorem insertP_more (cmp : K → K → Int) {f f' : Nat} (hf : f ≤ f') (n : Ptr) (key : K) (value : V) :
    More (insertP cmp f n key value) (insertP cmp f' n key value) := by
  unfold insertP; more [insLoopP_more cmp key hf]
theorem inplaceInsertP_within (cmp : K → K → Int) (f : Nat) (n : Ptr) (key : K) (value : V) :
    (inplaceInsertP cmp f n key value).Within (42 * f + 5) (f + 1) := by
  unfold inplaceInsertP; within [inpLoopP_within, finish_within]
theorem inplaceInsertP_more (cmp : K → K → Int) {f f' : Nat} (hf : f ≤ f') (n : Ptr) (key : K) (value : V) :
    More (inplaceInsertP cmp f n key value) (inplaceInsertP cmp f' n key value) := by
  unfold inplaceInsertP; more [inpLoopP_more cmp key hf]
end

theorem getP_within (cmp : K → K → Int) (f : Nat) (n : Ptr) (key : K) : (getP (V := V) cmp f n key).Within f 0 := by
  induction f generalizing n with
  | zero => trivial
  | succ f ih => unfold getP; within [ih]
theorem getP_more (cmp : K → K → Int) {f f' : Nat} (hf : f ≤ f') (n : Ptr) (key : K) : More (getP (V := V) cmp f n key) (getP cmp f' n key) := by
  induction f generalizing f' n with
  | zero => exact .fuel _
  | succ f ih =>
    obtain ⟨f', rfl⟩ : ∃ g, f' = g + 1 := ⟨f' - 1, by omega⟩
    have ih := fun n => ih (f' := f') (by omega) n
    unfold getP
    more [ih]

theorem noRedChild_within (s : Ptr) : (noRedChild (K := K) (V := V) s).Within 4 0 := by
  unfold noRedChild
  refine within_seq (within_load _) (by omega) (by omega) fun _ => within_seq (isRedP_within _) (by omega) (by omega) fun _ =>
    within_seq (within_load _) (by omega) (by omega) fun _ => andP_within _ ?_
  within [isRedP_within]
theorem borrowP_within (g p n s : Ptr) (b : Bool) : (borrowP (K := K) (V := V) g p n s b).Within 42 1 := by
  unfold borrowP; within [isRedP_within, fullCopy_within, setChld_within, double_within, single_within, setRedP_within]
theorem siblingP_within (g p n : Ptr) (b : Bool) : (siblingP (K := K) (V := V) g p n b).Within 50 2 := by
  unfold siblingP; within [fullCopy_within, setChld_within, noRedChild_within, setRedP_within, borrowP_within]
theorem delFixP_within (g p n : Ptr) (b c : Bool) : (delFixP (K := K) (V := V) g p n b c).Within 53 2 := by
  unfold delFixP
  refine within_seq (within_load _) (by omega) (by omega) fun _ => ?_
  refine within_seq (andP_within _ (m := 1) (n := 0) ?_) (by omega) (by omega) fun _ => ?_
  · within [isRedP_within]
  · within [isRedP_within, fullCopy_within, setChld_within, single_within, siblingP_within]
theorem delIter_within (cmp : K → K → Int) (key : K) (s : DSt) : (delIter (V := V) cmp key s).Within 59 3 := by
  unfold delIter; within [fullCopy_within, setChld_within, delFixP_within]
theorem delLoopP_within (cmp : K → K → Int) (key : K) (f : Nat) (s : DSt) : (delLoopP (V := V) cmp key f s).Within (60 * f) (3 * f) := by
  induction f generalizing s with
  | zero => trivial
  | succ f ih => unfold delLoopP; within [delIter_within, ih]
theorem delLoopP_more (cmp : K → K → Int) (key : K) {f f' : Nat} (hf : f ≤ f') (s : DSt) :
    More (delLoopP (V := V) cmp key f s) (delLoopP cmp key f' s) := by
  induction f generalizing f' s with
  | zero => exact .fuel _
  | succ f ih =>
    obtain ⟨f', rfl⟩ : ∃ g, f' = g + 1 := ⟨f' - 1, by omega⟩
    have ih := fun s => ih (f' := f') (by omega) s
    unfold delLoopP
    more [ih]
theorem delEndP_within (s : DSt) : (delEndP (K := K) (V := V) s).Within 10 0 := by
  unfold delEndP; within [setChld_within]
theorem delP_within [Inhabited K] [Inhabited V] (cmp : K → K → Int) (f : Nat) (n : Ptr) (key : K) : (delP (V := V) cmp f n key).Within (60 * f + 13) (3 * f + 1) := by
  unfold delP; within [delLoopP_within, delEndP_within, setRedP_within]
theorem delP_more [Inhabited K] [Inhabited V] (cmp : K → K → Int) {f f' : Nat} (hf : f ≤ f') (n : Ptr) (key : K) :
    More (delP (V := V) cmp f n key) (delP cmp f' n key) := by
  unfold delP; more [delLoopP_more cmp key hf]

/-- Listing a tree reads every node once. -/
theorem enumerateP_cost {f : Nat} {A : ATree (RD K V)} (hf : A.height < f) {h : Heap (RD K V)} (hA : ATree.Rep h A) :
    Cost (enumerateP f (ATree.ptr A)) h A.size 0 := by
  induction A generalizing f with
  | nil =>
    obtain ⟨f, rfl⟩ : ∃ g, f = g + 1 := ⟨f - 1, by simp at hf; omega⟩
    exact ⟨Nat.le_refl _, Nat.le_refl _⟩
  | node ad l r ihl ihr =>
    obtain ⟨f, rfl⟩ : ∃ g, f = g + 1 := ⟨f - 1, by omega⟩
    obtain ⟨h1, h2, h3, h4⟩ := hA
    simp only [BTree.height] at hf
    simp only [enumerateP, ATree.ptr_node, reduceCtorEq, if_false]
    refine Cost.mono (Cost.bind (W := fun _ => False) ((within_load _).cost h) ((wp_load h1).2 ?_)) (show 1 + (l.size + (r.size + 0)) ≤ _ by simp only [BTree.size]; omega)
      (show 0 + (0 + (0 + 0)) ≤ 0 from Nat.le_refl _)
    refine Cost.bind (ihl (by omega) h3) (wp_conseq (enumerateP_spec (by omega) h3) ?_)
    rintro _ _ ⟨rfl, rfl⟩
    refine Cost.bind (ihr (by omega) h4) (wp_conseq (enumerateP_spec (by omega) h4) ?_)
    rintro _ _ ⟨rfl, rfl⟩
    exact ⟨Nat.le_refl _, Nat.le_refl _⟩

end Verif.RBHeap
