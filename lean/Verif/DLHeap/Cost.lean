import Verif.DLHeap.Model
import Verif.RBHeap.Cost

/-!
# Cost of dltree calls
-/

namespace Verif.DLHeap
open Verif Verif.Heap Verif.Heap.Prog Verif.RB Verif.RBHeap Verif.DL Verif.Domain

variable {V E : Type} {M : DLMem V E}

theorem rootP_within (t : Ptr) : (rootP M t).Within 1 0 := within_lift _ (by within [])
theorem rootOrNilP_within (t : Ptr) : (rootOrNilP M t).Within 1 0 := by unfold rootOrNilP; within [rootP_within]
theorem newTreeP_within (t : Ptr) : (newTreeP M t).Within 0 1 := within_lift _ (by within [])
theorem setRootP_within (t r : Ptr) : (setRootP M t r).Within 2 0 := within_lift _ (within_upd ..)
theorem IsEmptyP_within (t : Ptr) : (IsEmptyP M t).Within 1 0 := by unfold IsEmptyP; within [rootP_within]

theorem RawGetP_within (f : Nat) (t : Ptr) (key : Bytes) : (RawGetP M f t key).Within (f + 1) 0 := by
  unfold RawGetP; within [rootP_within, getP_within]
theorem RawGetP_more {f f' : Nat} (hf : f ≤ f') (t : Ptr) (key : Bytes) : More (RawGetP M f t key) (RawGetP M f' t key) := by
  unfold RawGetP; more [getP_more cmpLabel hf]

section
variable [Inhabited V]

theorem RawInsertP_within (f : Nat) (t : Ptr) (key : Bytes) (v : V) : (RawInsertP M f t key v).Within (45 * f + 6) (3 * f + 2) := by
  unfold RawInsertP; within [rootOrNilP_within, insertP_within, newTreeP_within]
theorem RawInsertP_more {f f' : Nat} (hf : f ≤ f') (t : Ptr) (key : Bytes) (v : V) : More (RawInsertP M f t key v) (RawInsertP M f' t key v) := by
  unfold RawInsertP; more [insertP_more cmpLabel hf]

theorem RawInplaceInsertP_within (f : Nat) (t : Ptr) (key : Bytes) (v : V) : (RawInplaceInsertP M f t key v).Within (42 * f + 8) (f + 1) := by
  unfold RawInplaceInsertP; within [rootP_within, inplaceInsertP_within, setRootP_within]
theorem RawInplaceInsertP_more {f f' : Nat} (hf : f ≤ f') (t : Ptr) (key : Bytes) (v : V) :
    More (RawInplaceInsertP M f t key v) (RawInplaceInsertP M f' t key v) := by
  unfold RawInplaceInsertP; more [inplaceInsertP_more cmpLabel hf]

theorem RawDeleteP_within (f : Nat) (t : Ptr) (key : Bytes) : (RawDeleteP M f t key).Within (60 * f + 14) (3 * f + 2) := by
  unfold RawDeleteP; within [rootP_within, delP_within, newTreeP_within]
theorem RawDeleteP_more {f f' : Nat} (hf : f ≤ f') (t : Ptr) (key : Bytes) : More (RawDeleteP M f t key) (RawDeleteP M f' t key) := by
  unfold RawDeleteP; more [delP_more cmpLabel hf]
end

end Verif.DLHeap
