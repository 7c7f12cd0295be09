import Verif.DomHeap.History
import Verif.DLHeap.Cost

/-!
# Cost of domaintree calls
-/

namespace Verif.DomHeap
open Verif Verif.Heap Verif.Heap.Prog Verif.Heap.ATree Verif.RB Verif.RBHeap Verif.DLHeap Verif.DL Verif.Domain Verif.DomainText Verif.DomTree

/-! ## Walking labels -/

theorem foldP_within {D σ E : Type} {g : σ → Bytes → Prog D (σ × Option E)} {a b : Nat} (hg : ∀ st l, (g st l).Within a b) (st : σ) (ls : List Bytes) :
    (foldP g st ls).Within (ls.length * a) (ls.length * b) := by
  induction ls generalizing st with
  | nil => trivial
  | cons l ls ih =>
    unfold foldP
    refine within_seq (hg st l) (by simp [Nat.succ_mul]) (by simp [Nat.succ_mul]) fun x => ?_
    cases x.2 with
    | some e => exact within_pure ..
    | none => exact (ih x.1).mono (by simp [Nat.succ_mul]) (by simp [Nat.succ_mul])

theorem getLabelsLoopP_more {D σ E : Type} {g g' : σ → Bytes → Prog D (σ × Option E)} (hg : ∀ st l, More (g st l) (g' st l)) (c : Bytes) (k off : Nat) (st : σ) :
    More (getLabelsLoopP g c k off st) (getLabelsLoopP g' c k off st) := by
  induction k generalizing off st with
  | zero => exact .fuel _
  | succ k ih =>
    unfold getLabelsLoopP
    refine .ite (fun _ => ?_) fun _ => .refl _
    simp only
    refine .ite (fun _ => .refl _) fun _ => .bind (hg _ _) fun x => ?_
    cases x.2 with
    | some e => exact .refl _
    | none => exact ih _ _

theorem GetLabelsP_more {D σ E : Type} {g g' : σ → Bytes → Prog D (σ × Option E)} (hg : ∀ st l, More (g st l) (g' st l)) (d : Name) (st : σ) :
    More (GetLabelsP d g st) (GetLabelsP d g' st) := getLabelsLoopP_more hg ..

theorem GetLabelsP_within {D σ E : Type} {g : σ → Bytes → Prog D (σ × Option E)} {d : Name} {ls : List Bytes} (hd : Holds d ls) {a b : Nat}
    (hg : ∀ st l, (g st l).Within a b) (st : σ) : (GetLabelsP d g st).Within (ls.length * a) (ls.length * b) := by
  rw [getLabelsP hd]; exact foldP_within hg st ls

variable {V : Type}

theorem nodeP_within (n : Ptr) : (nodeP (V := V) n).Within 1 0 := within_lift _ (by within [])
theorem newNodeP_within (br : Ptr) (val : Option V) : (newNodeP br val).Within 0 1 := within_lift _ (by within [])
theorem setBranchesP_within (n t : Ptr) : (setBranchesP (V := V) n t).Within 2 0 := within_lift _ (within_upd ..)
theorem setValP_within (n : Ptr) (v : V) : (setValP n v).Within 2 0 := within_lift _ (within_upd ..)
theorem assertP_within (n : Ptr) : (assertP (V := V) n).Within 0 0 := by unfold assertP; within []
theorem copyP_within (n : Ptr) : (copyP (V := V) n).Within 1 1 := by unfold copyP; within [nodeP_within, newNodeP_within]
theorem nextP_within (i : Option Ptr) : (nextP (V := V) i).Within 1 1 := by unfold nextP; within [assertP_within, copyP_within, newNodeP_within]

theorem setBranchP_within (f : Nat) (n : Ptr) (l : Bytes) (x : Ptr) : (setBranchP (V := V) f n l x).Within (45 * f + 9) (3 * f + 2) := by
  unfold setBranchP; within [nodeP_within, RawInsertP_within, setBranchesP_within]
theorem setBranchP_more {f f' : Nat} (hf : f ≤ f') (n : Ptr) (l : Bytes) (x : Ptr) : More (setBranchP (V := V) f n l x) (setBranchP f' n l x) := by
  unfold setBranchP; more [RawInsertP_more hf]
theorem delBranchP_within (f : Nat) (n : Ptr) (l : Bytes) : (delBranchP (V := V) f n l).Within (60 * f + 17) (3 * f + 2) := by
  unfold delBranchP; within [nodeP_within, RawDeleteP_within, setBranchesP_within]
theorem delBranchP_more {f f' : Nat} (hf : f ≤ f') (n : Ptr) (l : Bytes) : More (delBranchP (V := V) f n l) (delBranchP f' n l) := by
  unfold delBranchP; more [RawDeleteP_more hf]

/-! ## Get -/

theorem getStepP_within (f : Nat) (st : Ptr × Option V) (l : Bytes) : (getStepP f st l).Within (f + 3) 0 := by
  unfold getStepP; within [nodeP_within, RawGetP_within, assertP_within]
theorem getStepP_more {f f' : Nat} (hf : f ≤ f') (st : Ptr × Option V) (l : Bytes) : More (getStepP f st l) (getStepP f' st l) := by
  unfold getStepP; more [RawGetP_more hf]
theorem GetP_within (f : Nat) (n : Ptr) {d : Name} {ls : List Bytes} (hd : Holds d ls) : (GetP (V := V) f n d).Within (ls.length * (f + 3)) 0 := by
  unfold GetP
  refine within_ite (fun _ => within_pure ..) fun _ => ?_
  refine within_seq (GetLabelsP_within hd (getStepP_within f) _) (Nat.le_refl _) (by simp) fun _ => within_pure ..
theorem GetP_more {f f' : Nat} (hf : f ≤ f') (n : Ptr) (d : Name) : More (GetP (V := V) f n d) (GetP f' n d) := by
  unfold GetP; more [GetLabelsP_more (getStepP_more hf)]

/-! ## Insert, InplaceInsert -/

theorem insertStepP_within (f : Nat) (n : Ptr) (l : Bytes) : (insertStepP (V := V) f n l).Within (46 * f + 12) (3 * f + 3) := by
  unfold insertStepP; within [nodeP_within, RawGetP_within, nextP_within, setBranchP_within]
theorem insertStepP_more {f f' : Nat} (hf : f ≤ f') (n : Ptr) (l : Bytes) : More (insertStepP (V := V) f n l) (insertStepP f' n l) := by
  unfold insertStepP; more [RawGetP_more hf, setBranchP_more hf]
theorem InsertP_within (f : Nat) (n : Ptr) {d : Name} {ls : List Bytes} (hd : Holds d ls) (v : V) :
    (InsertP f n d v).Within (ls.length * (46 * f + 12) + 3) (ls.length * (3 * f + 3) + 1) := by
  unfold InsertP
  refine within_seq (copyP_within _) (by omega) (by omega) fun r => within_seq (GetLabelsP_within hd (insertStepP_within f) _) (by omega) (by omega) fun x => ?_
  within [setValP_within]
theorem InsertP_more {f f' : Nat} (hf : f ≤ f') (n : Ptr) (d : Name) (v : V) : More (InsertP f n d v) (InsertP f' n d v) := by
  unfold InsertP; more [GetLabelsP_more (insertStepP_more hf)]

theorem inplaceStepP_within (f : Nat) (n : Ptr) (l : Bytes) : (inplaceStepP (V := V) f n l).Within (43 * f + 11) (f + 3) := by
  unfold inplaceStepP; within [nodeP_within, RawGetP_within, assertP_within, newTreeP_within, newNodeP_within, RawInplaceInsertP_within]
theorem inplaceStepP_more {f f' : Nat} (hf : f ≤ f') (n : Ptr) (l : Bytes) : More (inplaceStepP (V := V) f n l) (inplaceStepP f' n l) := by
  unfold inplaceStepP; more [RawGetP_more hf, RawInplaceInsertP_more hf]
theorem ensureBranchesP_within (n : Ptr) : (ensureBranchesP (V := V) n).Within 3 1 := by
  unfold ensureBranchesP; within [nodeP_within, newTreeP_within, setBranchesP_within]
theorem InplaceInsertP_within (f : Nat) (n : Ptr) {d : Name} {ls : List Bytes} (hd : Holds d ls) (v : V) :
    (InplaceInsertP f n d v).Within (ls.length * (43 * f + 11) + 5) (ls.length * (f + 3) + 1) := by
  unfold InplaceInsertP
  refine within_seq (ensureBranchesP_within _) (by omega) (by omega) fun r => within_seq (GetLabelsP_within hd (inplaceStepP_within f) _) (by omega) (by omega) fun x => ?_
  within [setValP_within]
theorem InplaceInsertP_more {f f' : Nat} (hf : f ≤ f') (n : Ptr) (d : Name) (v : V) : More (InplaceInsertP f n d v) (InplaceInsertP f' n d v) := by
  unfold InplaceInsertP; more [GetLabelsP_more (inplaceStepP_more hf)]

/-! ## Delete, DeleteSubdomains -/

theorem branchStepP_within (f : Nat) (st : List Bytes × Ptr × List Ptr) (l : Bytes) : (branchStepP (V := V) f st l).Within (f + 2) 0 := by
  unfold branchStepP; within [nodeP_within, RawGetP_within, assertP_within]
theorem branchStepP_more {f f' : Nat} (hf : f ≤ f') (st : List Bytes × Ptr × List Ptr) (l : Bytes) : More (branchStepP (V := V) f st l) (branchStepP f' st l) := by
  unfold branchStepP; more [RawGetP_more hf]
theorem branchStepP_returns (f : Nat) (st : List Bytes × Ptr × List Ptr) (l : Bytes) :
    (branchStepP (V := V) f st l).Returns fun x => x.1.1.length ≤ st.1.length + 1 := by
  unfold branchStepP
  refine returns_bind (returns_true _) fun x _ => returns_bind (returns_true _) fun item _ => ?_
  cases item with
  | none => exact Nat.le_succ _
  | some item =>
    refine returns_bind (returns_true _) fun n _ => ?_
    split
    · trivial
    · exact Nat.le_refl _

theorem branchFold_returns (f : Nat) (ls : List Bytes) (st : List Bytes × Ptr × List Ptr) :
    (foldP (branchStepP (V := V) f) st ls).Returns fun x => x.1.1.length ≤ st.1.length + ls.length := by
  induction ls generalizing st with
  | nil => exact Nat.le_refl _
  | cons l ls ih =>
    unfold foldP
    refine returns_bind (branchStepP_returns f st l) fun x hx => ?_
    cases e : x.2 with
    | some s =>
      show x.1.1.length ≤ _
      simp only [List.length_cons]; omega
    | none =>
      exact returns_mono (ih x.1) fun y hy => by simp only [List.length_cons]; omega

theorem getBranchP_within (f : Nat) (n : Ptr) {d : Name} {ls : List Bytes} (hd : Holds d ls) : (getBranchP (V := V) f n d).Within (ls.length * (f + 2)) 0 := by
  unfold getBranchP
  refine within_seq (GetLabelsP_within hd (branchStepP_within f) _) (Nat.le_refl _) (by simp) fun x => ?_
  within []
theorem getBranchP_returns (f : Nat) (n : Ptr) {d : Name} {ls : List Bytes} (hd : Holds d ls) :
    (getBranchP (V := V) f n d).Returns fun x => ∀ y, x = some y → y.1.length ≤ ls.length := by
  unfold getBranchP
  rw [getLabelsP hd]
  refine returns_bind (branchFold_returns f ls _) fun x hx => ?_
  cases x.2 with
  | some s => rintro y ⟨⟩
  | none => rintro y ⟨⟩; simpa using hx
theorem getBranchP_more {f f' : Nat} (hf : f ≤ f') (n : Ptr) (d : Name) : More (getBranchP (V := V) f n d) (getBranchP f' n d) := by
  unfold getBranchP; more [GetLabelsP_more (branchStepP_more hf)]

theorem emptyP_within (n : Ptr) : (emptyP (V := V) n).Within 2 0 := by unfold emptyP; within [nodeP_within, IsEmptyP_within]
theorem noneBelowP_within (n m : Ptr) : (noneBelowP (V := V) n m).Within 3 0 := by unfold noneBelowP; within [nodeP_within, IsEmptyP_within]
theorem relinkP_within (f : Nat) (n : Ptr) (l : Bytes) (p : Ptr) : (relinkP (V := V) f n l p).Within (60 * f + 19) (3 * f + 2) := by
  unfold relinkP; within [emptyP_within, delBranchP_within, setBranchP_within]
theorem relinkP_more {f f' : Nat} (hf : f ≤ f') (n : Ptr) (l : Bytes) (p : Ptr) : More (relinkP (V := V) f n l p) (relinkP f' n l p) := by
  unfold relinkP; more [delBranchP_more hf, setBranchP_more hf]
theorem copyBranchP_within (f : Nat) (ls : List Bytes) : ∀ (n : Ptr) (ps : List Ptr),
    (copyBranchP (V := V) f n ls ps).Within (ls.length * (60 * f + 20)) (ls.length * (3 * f + 3)) := by
  induction ls with
  | nil => intro n ps; exact within_pure ..
  | cons l ls ih =>
    intro n ps
    cases ps with
    | nil => exact within_pure ..
    | cons p ps =>
      rw [List.length_cons, Nat.add_one_mul ls.length, Nat.add_one_mul ls.length]
      unfold copyBranchP
      within [copyP_within, relinkP_within, ih]
theorem copyBranchP_more {f f' : Nat} (hf : f ≤ f') (ls : List Bytes) : ∀ (n : Ptr) (ps : List Ptr),
    More (copyBranchP (V := V) f n ls ps) (copyBranchP f' n ls ps) := by
  induction ls with
  | nil => intro n ps; exact .refl _
  | cons l ls ih =>
    intro n ps
    cases ps with
    | nil => exact .refl _
    | cons p ps =>
      unfold copyBranchP
      more [relinkP_more hf, ih]
theorem dropBranchP_within (f : Nat) (ls : List Bytes) (ps : List Ptr) :
    (dropBranchP (V := V) f ls ps).Within (ls.length * (60 * f + 20)) (ls.length * (3 * f + 3) + 1) := by
  cases ls with
  | nil => unfold dropBranchP; within [newNodeP_within]
  | cons l ls =>
    cases ps with
    | nil => unfold dropBranchP; within [newNodeP_within]
    | cons p ps =>
      rw [List.length_cons, Nat.add_one_mul ls.length, Nat.add_one_mul ls.length]
      unfold dropBranchP
      within [copyP_within, delBranchP_within, copyBranchP_within]
theorem dropBranchP_more {f f' : Nat} (hf : f ≤ f') (ls : List Bytes) (ps : List Ptr) : More (dropBranchP (V := V) f ls ps) (dropBranchP f' ls ps) := by
  cases ls with
  | nil => exact .refl _
  | cons l ls =>
    cases ps with
    | nil => exact .refl _
    | cons p ps =>
      unfold dropBranchP
      more [delBranchP_more hf, copyBranchP_more hf]
theorem clearP_within (f : Nat) (br : Ptr) (l : Bytes) (c : Ptr) : (clearP (V := V) f br l c).Within (60 * f + 18) (3 * f + 3) := by
  unfold clearP; within [IsEmptyP_within, delBranchP_within, newNodeP_within, setBranchP_within]
theorem clearP_more {f f' : Nat} (hf : f ≤ f') (br : Ptr) (l : Bytes) (c : Ptr) : More (clearP (V := V) f br l c) (clearP f' br l c) := by
  unfold clearP; more [delBranchP_more hf, setBranchP_more hf]
theorem clearBranchP_within (f : Nat) (br : Ptr) (ls : List Bytes) (ps : List Ptr) :
    (clearBranchP (V := V) f br ls ps).Within (ls.length * (60 * f + 20) + 1) (ls.length * (3 * f + 3) + 1) := by
  cases ls with
  | nil => unfold clearBranchP; within [IsEmptyP_within, newNodeP_within]
  | cons l ls =>
    cases ps with
    | nil => unfold clearBranchP; within [IsEmptyP_within, newNodeP_within]
    | cons p ps =>
      rw [List.length_cons, Nat.add_one_mul ls.length, Nat.add_one_mul ls.length]
      unfold clearBranchP
      within [copyP_within, clearP_within, copyBranchP_within]
theorem clearBranchP_more {f f' : Nat} (hf : f ≤ f') (br : Ptr) (ls : List Bytes) (ps : List Ptr) :
    More (clearBranchP (V := V) f br ls ps) (clearBranchP f' br ls ps) := by
  cases ls with
  | nil => exact .refl _
  | cons l ls =>
    cases ps with
    | nil => exact .refl _
    | cons p ps =>
      unfold clearBranchP
      more [clearP_more hf, copyBranchP_more hf]

theorem DeleteSubdomainsP_within (f : Nat) (n : Ptr) {d : Name} {ls : List Bytes} (hd : Holds d ls) :
    (DeleteSubdomainsP (V := V) f n d).Within (ls.length * (61 * f + 22) + 3) (ls.length * (3 * f + 3) + 1) := by
  have e : ls.length * (61 * f + 22) = ls.length * (60 * f + 20) + ls.length * (f + 2) := by rw [← Nat.mul_add]; congr 1; omega
  unfold DeleteSubdomainsP
  refine within_ite (fun _ => within_pure ..) fun _ => ?_
  refine within_seq' (getBranchP_returns f n hd) (getBranchP_within f n hd) (by omega) (by omega) fun b hb => ?_
  cases b with
  | none => exact within_pure ..
  | some y =>
    obtain ⟨labs, ni, ps⟩ := y
    have hl := hb _ rfl
    simp only at hl ⊢
    have h1 := Nat.mul_le_mul_right (60 * f + 20) hl
    have h2 := Nat.mul_le_mul_right (3 * f + 3) hl
    within [noneBelowP_within, dropBranchP_within]
theorem DeleteSubdomainsP_more {f f' : Nat} (hf : f ≤ f') (n : Ptr) (d : Name) : More (DeleteSubdomainsP (V := V) f n d) (DeleteSubdomainsP f' n d) := by
  unfold DeleteSubdomainsP; more [getBranchP_more hf, dropBranchP_more hf]

theorem DeleteP_within (f : Nat) (n : Ptr) {d : Name} {ls : List Bytes} (hd : Holds d ls) :
    (DeleteP (V := V) f n d).Within (ls.length * (61 * f + 22) + 3) (ls.length * (3 * f + 3) + 1) := by
  have e : ls.length * (61 * f + 22) = ls.length * (60 * f + 20) + ls.length * (f + 2) := by rw [← Nat.mul_add]; congr 1; omega
  unfold DeleteP
  refine within_ite (fun _ => within_pure ..) fun _ => ?_
  refine within_seq' (getBranchP_returns f n hd) (getBranchP_within f n hd) (by omega) (by omega) fun b hb => ?_
  cases b with
  | none => exact within_pure ..
  | some y =>
    obtain ⟨labs, ni, ps⟩ := y
    have hl := hb _ rfl
    simp only at hl ⊢
    have h1 := Nat.mul_le_mul_right (60 * f + 20) hl
    have h2 := Nat.mul_le_mul_right (3 * f + 3) hl
    within [nodeP_within, clearBranchP_within]
theorem DeleteP_more {f f' : Nat} (hf : f ≤ f') (n : Ptr) (d : Name) : More (DeleteP (V := V) f n d) (DeleteP f' n d) := by
  unfold DeleteP; more [getBranchP_more hf, clearBranchP_more hf]

/-! ## Label trees are no larger than the number of stored names -/

theorem NRep.shrink {m N : Nat} {h : Heap (DD V)} : ∀ {k : Nat} {a : Addr} {n : Node V} {F : Addr → Prop}, NRep m h k a n F → WF n →
    ∀ {es : List (List Bytes × V)}, (∀ q v, valueAt n q = some v → (q, v) ∈ es) → es.length ≤ N → NRep N h k a n F := by
  intro k
  induction k with
  | zero => intro a n F hN; exact hN.elim
  | succ k ih =>
    intro a n F hN hw es hes hle
    obtain ⟨t, A, fn, ff, o⟩ := hN
    refine ⟨t, A, fn, ff, { o with lab := { o.lab with size := ?_ }, sub := ?_ }⟩
    · have hsrt := o.lab.srt
      have hnd : ((RB.enumerate (erase A)).map Prod.fst).Nodup := by
        rw [List.nodup_iff_pairwise_ne, List.pairwise_map]
        refine hsrt.imp ?_
        rintro x y hxy e
        rw [e] at hxy
        have := cmpLabel_lawful.refl y.1
        omega
      have hsub : (RB.enumerate (erase A)).map Prod.fst ⊆ es.filterMap fun e => e.1.head? := by
        intro l hl
        obtain ⟨⟨l', p⟩, hp, rfl⟩ := List.mem_map.1 hl
        have hg : DL.RawGet n.branches l' = some (fn p) := by rw [o.rawGet l', show at_ A l' = some p from (get_lookup hsrt).2 hp]; rfl
        obtain ⟨q, v, hv⟩ := live_value (hw.sub hg) (hw.live hg)
        exact List.mem_filterMap.2 ⟨(l' :: q, v), hes _ _ (by rw [valueAt_cons, hg]; exact hv), rfl⟩
      have h1 := List.Nodup.length_le_of_subset hnd hsub
      have h2 := List.length_filterMap_le (fun e : List Bytes × V => e.1.head?) es
      rw [List.length_map, RB.length_enumerate, erase_size] at h1
      omega
    · intro l p hp
      obtain ⟨c, e, r⟩ := o.sub l p hp
      have hg : DL.RawGet n.branches l = some (fn p) := by rw [o.rawGet l, hp]; rfl
      refine ⟨c, e, ih r (hw.sub hg) (es := es.filterMap fun e => match e.1 with | [] => none | l' :: q => if l' = l then some (q, e.2) else none) ?_ ?_⟩
      · intro q v hv
        refine List.mem_filterMap.2 ⟨(l :: q, v), hes _ _ (by rw [valueAt_cons, hg]; exact hv), by simp⟩
      · exact Nat.le_trans (List.length_filterMap_le _ _) hle

theorem PRep.shrink {m N k : Nat} {h : Heap (DD V)} {p : Ptr} {n : Option (Node V)} {F : Addr → Prop} (hN : PRep m h k p n F) (hw : WF (base n))
    {es : List (List Bytes × V)} (hes : ∀ q v, valueAt (base n) q = some v → (q, v) ∈ es) (hle : es.length ≤ N) : PRep N h k p n F := by
  cases p with
  | none => cases n with
    | none => exact hN
    | some n => exact hN.elim
  | some a => cases n with
    | none => exact hN.elim
    | some n => rw [base_some] at hw hes; exact NRep.shrink (show NRep _ _ _ _ _ _ from hN) hw hes hle

end Verif.DomHeap
