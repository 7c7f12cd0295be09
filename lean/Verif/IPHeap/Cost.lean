import Verif.IPHeap.Model
import Verif.NumHeap.Cost

/-!
# Cost of iptree calls
-/

namespace Verif.IPHeap
open Verif Verif.Heap Verif.Heap.Prog Verif.Num Verif.NumHeap Verif.IP

variable {V : Type}

theorem rootsP_within (t : Ptr) : (rootsP (V := V) t).Within 1 0 := within_lift _ (by within [])
theorem newTreeP_within (a b : Ptr) : (newTreeP (V := V) a b).Within 0 1 := within_lift _ (by within [])
theorem rootsOrNilP_within (t : Ptr) : (rootsOrNilP (V := V) t).Within 1 0 := by unfold rootsOrNilP; within [rootsP_within]
theorem setRoot32_within (t r : Ptr) : (setRoot32 (V := V) t r).Within 2 0 := within_lift _ (within_upd ..)
theorem setRoot64_within (t r : Ptr) : (setRoot64 (V := V) t r).Within 2 0 := within_lift _ (within_upd ..)
theorem subP_within (v : Option (HV V)) : (subP v).Within 0 0 := by unfold subP; within []

section
variable [Inhabited V]

theorem InsertNetP_within (f : Nat) (t : Ptr) (n : Option IPNet) (value : V) : (InsertNetP f t n value).Within (15 * f + 2) (2 * f + 3) := by
  unfold InsertNetP
  within [rootsOrNilP_within, InsertP_within, ExactMatchP_within, subP_within, newTreeP_within]

theorem InsertNetP_more {f f' : Nat} (hf : f ≤ f') (t : Ptr) (n : Option IPNet) (value : V) : More (InsertNetP f t n value) (InsertNetP f' t n value) := by
  unfold InsertNetP
  more [InsertP_more hf, ExactMatchP_more hf]

theorem InplaceInsertNetP_within (f : Nat) (t : Ptr) (n : Option IPNet) (value : V) : (InplaceInsertNetP f t n value).Within (15 * f + 5) (4 * f) := by
  unfold InplaceInsertNetP
  within [rootsP_within, InplaceInsertP_within, ExactMatchP_within, subP_within, setRoot32_within, setRoot64_within]

theorem InplaceInsertNetP_more {f f' : Nat} (hf : f ≤ f') (t : Ptr) (n : Option IPNet) (value : V) :
    More (InplaceInsertNetP f t n value) (InplaceInsertNetP f' t n value) := by
  unfold InplaceInsertNetP
  more [InplaceInsertP_more hf, ExactMatchP_more hf]

theorem DeleteByNetP_within (f : Nat) (t : Ptr) (n : Option IPNet) : (DeleteByNetP (V := V) f t n).Within (13 * f + 2) (2 * f + 2) := by
  unfold DeleteByNetP
  within [rootsP_within, DeleteP_within, InsertP_within, ExactMatchP_within, subP_within, newTreeP_within]

theorem DeleteByNetP_more {f f' : Nat} (hf : f ≤ f') (t : Ptr) (n : Option IPNet) : More (DeleteByNetP (V := V) f t n) (DeleteByNetP f' t n) := by
  unfold DeleteByNetP
  more [DeleteP_more hf, InsertP_more hf, ExactMatchP_more hf]
end

theorem GetByNetP_within (f : Nat) (t : Ptr) (n : Option IPNet) : (GetByNetP (V := V) f t n).Within (3 * f + 5) 0 := by
  unfold GetByNetP
  within [rootsP_within, MatchP_within]

theorem GetByNetP_more {f f' : Nat} (hf : f ≤ f') (t : Ptr) (n : Option IPNet) : More (GetByNetP (V := V) f t n) (GetByNetP f' t n) := by
  unfold GetByNetP
  more [MatchP_more hf]

end Verif.IPHeap
