import Verif.NumHeap.History
import Verif.Heap.Cost

/-!
# Cost of numtree calls
-/

namespace Verif.NumHeap
open Verif.Heap Verif.Heap.Prog Verif.Num

variable {w : Nat} {V : Type} [KeySize w]

omit [KeySize w] in
theorem newNode_within (d : ND w V) : (newNode d).Within 0 1 := within_new _

theorem insertP_within [Inhabited V] (f : Nat) (n : Ptr) (c : Nat) : (insertP (w := w) (V := V) f n c).Within (7 * f) f := by
  induction f generalizing n c with
  | zero => trivial
  | succ f ih =>
    unfold insertP
    within [newNode_within, ih]

theorem insertP_more [Inhabited V] {f f' : Nat} (hf : f ≤ f') (n : Ptr) (c : Nat) : More (insertP (w := w) (V := V) f n c) (insertP f' n c) := by
  induction f generalizing f' n c with
  | zero => exact .fuel _
  | succ f ih =>
    obtain ⟨f', rfl⟩ : ∃ g, f' = g + 1 := ⟨f' - 1, by omega⟩
    have ih := fun n c => ih (f' := f') (by omega) n c
    unfold insertP
    more [ih]

theorem inplaceLoop_within [Inhabited V] (f : Nat) (key : BitVec w) (sbits : Nat) (value : V) (r p : Ptr) (br : Bool) (n : Ptr) :
    (inplaceLoop f key sbits value r p br n).Within (7 * f) (2 * f) := by
  induction f generalizing p br n with
  | zero => trivial
  | succ f ih =>
    unfold inplaceLoop
    within [newNode_within, ih]

theorem inplaceLoop_more [Inhabited V] {f f' : Nat} (hf : f ≤ f') (key : BitVec w) (sbits : Nat) (value : V) (r p : Ptr) (br : Bool) (n : Ptr) :
    More (inplaceLoop f key sbits value r p br n) (inplaceLoop f' key sbits value r p br n) := by
  induction f generalizing f' p br n with
  | zero => exact .fuel _
  | succ f ih =>
    obtain ⟨f', rfl⟩ : ∃ g, f' = g + 1 := ⟨f' - 1, by omega⟩
    have ih := fun p br n => ih (f' := f') (by omega) p br n
    unfold inplaceLoop
    more [ih]

theorem matchP_within (f : Nat) (n : Ptr) (key : BitVec w) (bits : Nat) : (matchP (V := V) f n key bits).Within f 0 := by
  induction f generalizing n with
  | zero => trivial
  | succ f ih =>
    unfold matchP
    within [ih]

theorem matchP_more {f f' : Nat} (hf : f ≤ f') (n : Ptr) (key : BitVec w) (bits : Nat) : More (matchP (V := V) f n key bits) (matchP f' n key bits) := by
  induction f generalizing f' n with
  | zero => exact .fuel _
  | succ f ih =>
    obtain ⟨f', rfl⟩ : ∃ g, f' = g + 1 := ⟨f' - 1, by omega⟩
    have ih := fun n => ih (f' := f') (by omega) n
    unfold matchP
    more [ih]

theorem exactMatchP_within (f : Nat) (n : Ptr) (key : BitVec w) (bits : Nat) : (exactMatchP (V := V) f n key bits).Within f 0 := by
  induction f generalizing n with
  | zero => trivial
  | succ f ih =>
    unfold exactMatchP
    within [ih]

theorem exactMatchP_more {f f' : Nat} (hf : f ≤ f') (n : Ptr) (key : BitVec w) (bits : Nat) :
    More (exactMatchP (V := V) f n key bits) (exactMatchP f' n key bits) := by
  induction f generalizing f' n with
  | zero => exact .fuel _
  | succ f ih =>
    obtain ⟨f', rfl⟩ : ∃ g, f' = g + 1 := ⟨f' - 1, by omega⟩
    have ih := fun n => ih (f' := f') (by omega) n
    unfold exactMatchP
    more [ih]

theorem delP_within (f : Nat) (n : Ptr) (key : BitVec w) (bits : Nat) : (delP (V := V) f n key bits).Within (5 * f) f := by
  induction f generalizing n with
  | zero => trivial
  | succ f ih =>
    unfold delP
    within [newNode_within, ih]

theorem delP_more {f f' : Nat} (hf : f ≤ f') (n : Ptr) (key : BitVec w) (bits : Nat) : More (delP (V := V) f n key bits) (delP f' n key bits) := by
  induction f generalizing f' n with
  | zero => exact .fuel _
  | succ f ih =>
    obtain ⟨f', rfl⟩ : ∃ g, f' = g + 1 := ⟨f' - 1, by omega⟩
    have ih := fun n => ih (f' := f') (by omega) n
    unfold delP
    more [ih]

/-! ## The exported calls -/

theorem InsertP_within [Inhabited V] (f : Nat) (n : Ptr) (key : BitVec w) (bits : Int) (value : V) :
    (InsertP f n key bits value).Within (7 * f) (f + 1) := by
  unfold InsertP
  within [newNode_within, insertP_within]

theorem InsertP_more [Inhabited V] {f f' : Nat} (hf : f ≤ f') (n : Ptr) (key : BitVec w) (bits : Int) (value : V) :
    More (InsertP f n key bits value) (InsertP f' n key bits value) := by
  unfold InsertP
  more [insertP_more hf]

theorem InplaceInsertP_within [Inhabited V] (f : Nat) (n : Ptr) (key : BitVec w) (bits : Int) (value : V) :
    (InplaceInsertP f n key bits value).Within (7 * f) (2 * f) := inplaceLoop_within ..

theorem InplaceInsertP_more [Inhabited V] {f f' : Nat} (hf : f ≤ f') (n : Ptr) (key : BitVec w) (bits : Int) (value : V) :
    More (InplaceInsertP f n key bits value) (InplaceInsertP f' n key bits value) := inplaceLoop_more hf ..

theorem MatchP_within (f : Nat) (n : Ptr) (key : BitVec w) (bits : Int) : (MatchP (V := V) f n key bits).Within (f + 1) 0 := by
  unfold MatchP
  within [matchP_within]

theorem MatchP_more {f f' : Nat} (hf : f ≤ f') (n : Ptr) (key : BitVec w) (bits : Int) : More (MatchP (V := V) f n key bits) (MatchP f' n key bits) := by
  unfold MatchP
  more [matchP_more hf]

theorem FindNodeP_within (f : Nat) (n : Ptr) (key : BitVec w) (bits : Int) : (FindNodeP (V := V) f n key bits).Within f 0 := by
  unfold FindNodeP
  within [exactMatchP_within]

theorem FindNodeP_more {f f' : Nat} (hf : f ≤ f') (n : Ptr) (key : BitVec w) (bits : Int) : More (FindNodeP (V := V) f n key bits) (FindNodeP f' n key bits) := by
  unfold FindNodeP
  more [exactMatchP_more hf]

theorem ExactMatchP_within (f : Nat) (n : Ptr) (key : BitVec w) (bits : Int) : (ExactMatchP (V := V) f n key bits).Within (f + 1) 0 := by
  unfold ExactMatchP
  within [FindNodeP_within]

theorem ExactMatchP_more {f f' : Nat} (hf : f ≤ f') (n : Ptr) (key : BitVec w) (bits : Int) :
    More (ExactMatchP (V := V) f n key bits) (ExactMatchP f' n key bits) := by
  unfold ExactMatchP
  more [FindNodeP_more hf]

theorem DeleteP_within (f : Nat) (n : Ptr) (key : BitVec w) (bits : Int) : (DeleteP (V := V) f n key bits).Within (5 * f) f := by
  unfold DeleteP
  within [delP_within]

theorem DeleteP_more {f f' : Nat} (hf : f ≤ f') (n : Ptr) (key : BitVec w) (bits : Int) : More (DeleteP (V := V) f n key bits) (DeleteP f' n key bits) := by
  unfold DeleteP
  more [delP_more hf]

omit [KeySize w] in
/-- Listing a tree reads every node once. -/
theorem enumerateP_cost {f : Nat} {A : ATree (ND w V)} (hf : A.height < f) {h : Heap (ND w V)} (hA : ATree.Rep h A) (hn : A ≠ .nil) :
    Cost (enumerateP f (ATree.ptr A)) h A.size 0 := by
  induction A generalizing f with
  | nil => exact absurd rfl hn
  | node ad l r ihl ihr =>
    obtain ⟨f, rfl⟩ : ∃ g, f = g + 1 := ⟨f - 1, by omega⟩
    obtain ⟨h1, h2, h3, h4⟩ := hA
    simp only [BTree.height] at hf
    have key : ∀ t : ATree (ND w V), t.height < f → ATree.Rep h t → (∀ {f : Nat}, t.height < f → ATree.Rep h t → t ≠ .nil → Cost (enumerateP f (ATree.ptr t)) h t.size 0) →
        Cost (ifNotNil (ATree.ptr t) [] (enumerateP f (ATree.ptr t))) h t.size 0 ∧
        wp (fun _ => False) (ifNotNil (ATree.ptr t) [] (enumerateP f (ATree.ptr t))) (fun _ h' => h' = h) h := by
      intro t ht hr hc
      cases t with
      | nil => exact ⟨⟨Nat.le_refl _, Nat.le_refl _⟩, rfl⟩
      | node ad' l' r' =>
        have hc := hc ht hr (by simp)
        simp only [ATree.ptr_node, ifNotNil_some] at hc ⊢
        exact ⟨hc, wp_conseq (enumerateP_spec f _ ht h hr (by simp)) fun _ _ q => q.1⟩
    obtain ⟨kl, kl'⟩ := key l (by omega) h3 fun a b c => ihl a b c
    obtain ⟨kr, kr'⟩ := key r (by omega) h4 fun a b c => ihr a b c
    simp only [enumerateP, ATree.ptr_node]
    refine Cost.mono (Cost.bind (W := fun _ => False) ((within_load _).cost h) ((wp_load h1).2 ?_)) (show 1 + (l.size + (r.size + 0)) ≤ _ by simp only [BTree.size]; omega)
      (show 0 + (0 + (0 + 0)) ≤ 0 from Nat.le_refl _)
    refine Cost.bind kl (wp_conseq kl' ?_)
    rintro _ _ rfl
    refine Cost.bind kr (wp_conseq kr' ?_)
    rintro _ _ rfl
    exact ⟨Nat.le_refl _, Nat.le_refl _⟩

end Verif.NumHeap
