import Verif.IPHeap.Rep

/-! # numtree calls on parts of iptree objects -/

namespace Verif.IPHeap
open Verif Verif.Heap Verif.Heap.Prog Verif.Heap.ATree Verif.Num Verif.NumHeap Verif.IP

variable {V : Type}

theorem insert_wf' {w : Nat} {W : Type} [LawfulKeySize w] [Inhabited W] {t : NTree w W} (h : WF [] t) (k : BitVec w) (b : Int) (v : W) :
    WF [] (Num.Insert t k b v) := (insert_spec h (c := ⟨k, clamp w b, true, v⟩) (clamp_le b) rfl (List.nil_prefix)).1

theorem delete_wf' {w : Nat} {W : Type} [LawfulKeySize w] {t : NTree w W} (h : WF [] t) (k : BitVec w) (b : Int) :
    WF [] (Num.Delete t k b).1 := (del_spec h k (clamp_le b)).1

/-- What a copy-on-write call leaves. -/
def Kept (h h' : Heap (IPD V)) : Prop := h.next ≤ h'.next ∧ ∀ a, a < h.next → h'.mem a = h.mem a

section
variable [Inhabited V] {f : Nat} (hf : 66 ≤ f) {h : Heap (IPD V)}
include hf

/-- Insert into `root32`. -/
theorem ins4_spec {A : ATree (ND 32 V)} (hA : Rep (k32.view h) A) (hw : WF [] (erase A)) (k : BitVec 32) (b : Int) (v : V) :
    wp (fun a => h.next ≤ a) (on32 (InsertP f (ptr A) k b v)) (fun p h' => ∃ A', p = ptr A' ∧ Rep (k32.view h') A' ∧
      erase A' = Num.Insert (erase A) k b v ∧ (∀ x, cnt x A' ≤ if h.next ≤ x then 1 else cnt x A) ∧ Kept h h') h := by
  have := wf_height hw
  refine wp_conseq (on_spec k32 (InsertP_spec (by omega) hA k b v)) ?_
  rintro p h' ⟨⟨A', h1, h2, h3, h4⟩, h5, h6⟩
  exact ⟨A', h1, h2, h3, h4, h5, fun a ha => h6 a ha (by simp; omega)⟩

omit [Inhabited V] in
theorem del4_spec {A : ATree (ND 32 V)} (hA : Rep (k32.view h) A) (hw : WF [] (erase A)) (k : BitVec 32) (b : Int) :
    wp (fun a => h.next ≤ a) (on32 (DeleteP f (ptr A) k b)) (fun r h' => ∃ A', r.1 = ptr A' ∧ Rep (k32.view h') A' ∧
      (erase A', r.2) = Num.Delete (erase A) k b ∧ (∀ x, cnt x A' ≤ if h.next ≤ x then 1 else cnt x A) ∧ Kept h h') h := by
  have := wf_height hw
  refine wp_conseq (on_spec k32 (DeleteP_spec (by omega) hA k b)) ?_
  rintro p h' ⟨⟨A', h1, h2, h3, _, h4⟩, h5, h6⟩
  exact ⟨A', h1, h2, h3, h4, h5, fun a ha => h6 a ha (by simp; omega)⟩

theorem inp4_spec {A : ATree (ND 32 V)} (hA : Rep (k32.view h) A) (hw : WF [] (erase A)) (hc : ∀ x, cnt x A ≤ 1) (k : BitVec 32) (b : Int) (v : V) :
    wp (fun a => 1 ≤ cnt a A ∨ h.next ≤ a) (on32 (InplaceInsertP f (ptr A) k b v)) (fun p h' => ∃ A', p = ptr A' ∧ Rep (k32.view h') A' ∧
      erase A' = Num.Insert (erase A) k b v ∧ (∀ x, cnt x A' ≤ if h.next ≤ x then 1 else cnt x A) ∧ h.next ≤ h'.next ∧
      ∀ a, a < h.next → cnt a A = 0 → h'.mem a = h.mem a) h := by
  have := wf_height hw
  refine wp_conseq (on_spec k32 (InplaceInsertP_spec (by omega) hA hc k b v)) ?_
  rintro p h' ⟨⟨A', h1, h2, h3, h4⟩, h5, h6⟩
  exact ⟨A', h1, h2, h3, h4, h5, fun a ha hz => h6 a ha (by simp; omega)⟩

/-- Insert into a nested tree. -/
theorem insB_spec {B : ATree (ND 64 V)} (hB : Sub h B) (k : BitVec 64) (b : Int) (v : V) :
    wp (fun a => h.next ≤ a) (on64 (InsertP f (ptr B) k b (.user v))) (fun p h' => ∃ B', p = ptr B' ∧ Sub h' B' ∧
      erase B' = Num.Insert (erase B) k b v ∧ (∀ x, cnt x B' ≤ if h.next ≤ x then 1 else cnt x B) ∧ Kept h h') h := by
  have := wf_height hB.2
  refine wp_conseq (on_spec k64 (InsertA_spec (g := HV.user) rfl (by omega) hB.1 k b v)) ?_
  rintro p h' ⟨⟨A', h1, h2, h3, h4⟩, h5, h6⟩
  refine ⟨A', h1, ⟨h2, ?_⟩, h3, h4, h5, fun a ha => h6 a ha (by simp; omega)⟩
  rw [h3]; exact insert_wf' hB.2 k b v

omit [Inhabited V] in
theorem delB_spec {B : ATree (ND 64 V)} (hB : Sub h B) (k : BitVec 64) (b : Int) :
    wp (fun a => h.next ≤ a) (on64 (DeleteP f (ptr B) k b)) (fun r h' => ∃ B', r.1 = ptr B' ∧ Sub h' B' ∧
      (erase B', r.2) = Num.Delete (erase B) k b ∧ (∀ x, cnt x B' ≤ if h.next ≤ x then 1 else cnt x B) ∧ Kept h h') h := by
  have := wf_height hB.2
  refine wp_conseq (on_spec k64 (DeleteA_spec (g := HV.user) (by omega) hB.1 k b)) ?_
  rintro p h' ⟨⟨A', h1, h2, h3, h4⟩, h5, h6⟩
  refine ⟨A', h1, ⟨h2, ?_⟩, h3, h4, h5, fun a ha => h6 a ha (by simp; omega)⟩
  rw [show erase A' = _ from congrArg Prod.fst h3]; exact delete_wf' hB.2 k b

theorem inpB_spec {B : ATree (ND 64 V)} (hB : Sub h B) (hc : ∀ x, cnt x B ≤ 1) (k : BitVec 64) (b : Int) (v : V) :
    wp (fun a => 1 ≤ cnt a B ∨ h.next ≤ a) (on64 (InplaceInsertP f (ptr B) k b (.user v))) (fun p h' => ∃ B', p = ptr B' ∧ Sub h' B' ∧
      erase B' = Num.Insert (erase B) k b v ∧ (∀ x, cnt x B' ≤ if h.next ≤ x then 1 else cnt x B) ∧ h.next ≤ h'.next ∧
      ∀ a, a < h.next → cnt a B = 0 → h'.mem a = h.mem a) h := by
  have := wf_height hB.2
  refine wp_conseq (on_spec k64 (InplaceInsertA_spec (g := HV.user) rfl (by omega) hB.1 hc k b v)) ?_
  rintro p h' ⟨⟨A', h1, h2, h3, h4⟩, h5, h6⟩
  refine ⟨A', h1, ⟨h2, ?_⟩, h3, h4, h5, fun a ha hz => h6 a ha (by simp; omega)⟩
  rw [h3]; exact insert_wf' hB.2 k b v

/-- Insert into `root64`, a user value or a nested tree. -/
theorem ins6_spec {P : ATree (ND 64 (AV V))} (hP : Rep6 h P) (k : BitVec 64) (b : Int) (v : AV V) (hv : SubOk h v) :
    wp (fun a => h.next ≤ a) (on64 (InsertP f (ptr P) k b (toHV v))) (fun p h' => ∃ P', p = ptr P' ∧ Rep6 h' P' ∧
      erase P' = Num.Insert (erase P) k b v ∧
      (∀ x, tot x P' + oldV (subCnt x) (erase P) k (clamp 64 b) ≤ if h.next ≤ x then 1 else tot x P + subCnt x v) ∧ Kept h h') h := by
  have := wf_height hP.wf
  refine wp_conseq (on_spec k64 (InsertA_spec (g := toHV) rfl (by omega) hP.rep k b v)) ?_
  rintro p h' ⟨⟨P', h1, h2, h3, h4⟩, h5, h6⟩
  have kp : Kept h h' := ⟨h5, fun a ha => h6 a ha (by simp; omega)⟩
  refine ⟨P', h1, ⟨h2, fun u hu => ?_, ?_⟩, h3, fun x => ?_, kp⟩
  · rw [h3] at hu
    have hu : SubOk h u := by
      rcases vals_insert _ _ u hu with rfl | rfl | q
      · exact hv
      · trivial
      · exact hP.sub u q
    refine hu.frame h5 fun a ha => kp.2 a ?_
    have := fun q => hu.zero (a := a) q
    omega
  · rw [h3]; exact insert_wf' hP.wf k b v
  · have := sumV_insert (subCnt x) rfl hP.wf (c := ⟨k, clamp 64 b, true, v⟩) (clamp_le b)
    simp only at this
    have e : sumV (subCnt x) (erase P') = sumV (subCnt x) (insert (erase P) ⟨k, clamp 64 b, true, v⟩) := by rw [h3]; rfl
    have h4 := h4 x
    unfold tot
    by_cases hx : h.next ≤ x
    · have z := hP.zero hx
      have zv := hv.zero hx
      simp only [k64.view_next, hx, if_true] at h4 ⊢
      unfold tot at z
      omega
    · simp only [k64.view_next, hx, if_false] at h4 ⊢
      omega

omit [Inhabited V] in
theorem del6_spec {P : ATree (ND 64 (AV V))} (hP : Rep6 h P) (k : BitVec 64) (b : Int) :
    wp (fun a => h.next ≤ a) (on64 (DeleteP f (ptr P) k b)) (fun r h' => ∃ P', r.1 = ptr P' ∧ Rep6 h' P' ∧
      (erase P', r.2) = Num.Delete (erase P) k b ∧ (∀ x, tot x P' ≤ if h.next ≤ x then 1 else tot x P) ∧ Kept h h') h := by
  have := wf_height hP.wf
  refine wp_conseq (on_spec k64 (DeleteA_spec (g := toHV) (by omega) hP.rep k b)) ?_
  rintro p h' ⟨⟨P', h1, h2, h3, h4⟩, h5, h6⟩
  have kp : Kept h h' := ⟨h5, fun a ha => h6 a ha (by simp; omega)⟩
  have h3' : erase P' = (del (erase P) k (clamp 64 b)).1 := congrArg Prod.fst h3
  refine ⟨P', h1, ⟨h2, fun u hu => ?_, ?_⟩, h3, fun x => ?_, kp⟩
  · rw [h3'] at hu
    have hu : SubOk h u := hP.sub u (vals_del _ _ _ u hu)
    refine hu.frame h5 fun a ha => kp.2 a ?_
    have := fun q => hu.zero (a := a) q
    omega
  · rw [h3']; exact delete_wf' hP.wf k b
  · have := sumV_del (subCnt x) (erase P) k (clamp 64 b)
    rw [← h3'] at this
    have h4 := h4 x
    unfold tot
    by_cases hx : h.next ≤ x
    · have z := hP.zero hx
      simp only [k64.view_next, hx, if_true] at h4 ⊢
      unfold tot at z
      omega
    · simp only [k64.view_next, hx, if_false] at h4 ⊢
      omega

/-- InplaceInsert into `root64`; only its own nodes are written. -/
theorem inp6_spec {P : ATree (ND 64 (AV V))} (hP : Rep (k64.view h) (mapA toHV P)) (hw : WF [] (erase P)) (hc : ∀ x, cnt x P ≤ 1) (k : BitVec 64) (b : Int) (v : AV V)
    (hv : ∀ u ∈ vals (Num.Insert (erase P) k b v), SubOk h u ∧ ∀ a, 1 ≤ cnt a P → subCnt a u = 0) :
    wp (fun a => 1 ≤ cnt a P ∨ h.next ≤ a) (on64 (InplaceInsertP f (ptr P) k b (toHV v))) (fun p h' => ∃ P', p = ptr P' ∧ Rep6 h' P' ∧
      erase P' = Num.Insert (erase P) k b v ∧ (∀ x, cnt x P' ≤ if h.next ≤ x then 1 else cnt x P) ∧ h.next ≤ h'.next ∧
      ∀ a, a < h.next → cnt a P = 0 → h'.mem a = h.mem a) h := by
  have := wf_height hw
  refine wp_conseq (on_spec k64 (InplaceInsertA_spec (g := toHV) rfl (by omega) hP hc k b v)) ?_
  rintro p h' ⟨⟨P', h1, h2, h3, h4⟩, h5, h6⟩
  have kp : ∀ a, a < h.next → cnt a P = 0 → h'.mem a = h.mem a := fun a ha hz => h6 a ha (by simp; omega)
  refine ⟨P', h1, ⟨h2, fun u hu => ?_, ?_⟩, h3, h4, h5, kp⟩
  · rw [h3] at hu
    obtain ⟨hu, hz⟩ := hv u hu
    refine hu.frame h5 fun a ha => kp a ?_ ?_
    · have := fun q => hu.zero (a := a) q
      omega
    · have := hz a; omega
  · rw [h3]; exact insert_wf' hw k b v
end

section
variable {f : Nat} (hf : 66 ≤ f) {h : Heap (IPD V)} {W : Addr → Prop}
include hf

theorem exact6_spec {P : ATree (ND 64 (AV V))} (hP : Rep6 h P) (k : BitVec 64) (b : Int) :
    wp W (on64 (ExactMatchP f (ptr P) k b)) (fun r h' => h' = h ∧ r = (Num.ExactMatch (erase P) k b).map toHV) h := by
  have := wf_height hP.wf
  exact on_read k64 (ExactMatchP_readOnly f _ k b) (ExactMatchA_spec (by omega) hP.rep k b)

theorem match6_spec {P : ATree (ND 64 (AV V))} (hP : Rep6 h P) (k : BitVec 64) (b : Int) :
    wp W (on64 (MatchP f (ptr P) k b)) (fun r h' => h' = h ∧ r = (Num.Match (erase P) k b).map toHV) h := by
  have := wf_height hP.wf
  exact on_read k64 (MatchP_readOnly f _ k b) (MatchA_spec (by omega) hP.rep k b)

theorem matchB_spec {B : ATree (ND 64 V)} (hB : Sub h B) (k : BitVec 64) (b : Int) :
    wp W (on64 (MatchP f (ptr B) k b)) (fun r h' => h' = h ∧ r = (Num.Match (erase B) k b).map HV.user) h := by
  have := wf_height hB.2
  exact on_read k64 (MatchP_readOnly f _ k b) (MatchA_spec (by omega) hB.1 k b)

theorem match4_spec {A : ATree (ND 32 V)} (hA : Rep (k32.view h) A) (hw : WF [] (erase A)) (k : BitVec 32) (b : Int) :
    wp W (on32 (MatchP f (ptr A) k b)) (fun r h' => h' = h ∧ r = Num.Match (erase A) k b) h := by
  have := wf_height hw
  exact on_read k32 (MatchP_readOnly f _ k b) (MatchP_spec (by omega) hA k b)

theorem enum4_spec {A : ATree (ND 32 V)} (hA : Rep (k32.view h) A) (hw : WF [] (erase A)) :
    wp W (on32 (EnumerateP f (ptr A))) (fun r h' => h' = h ∧ r = Num.Enumerate (erase A)) h := by
  have := wf_height hw
  exact on_read k32 (EnumerateP_readOnly f _) (EnumerateP_spec (by omega) hA)

theorem enum6_spec {P : ATree (ND 64 (AV V))} (hP : Rep6 h P) :
    wp W (on64 (EnumerateP f (ptr P))) (fun r h' => h' = h ∧ r = (Num.Enumerate (erase P)).map (ND.mapV toHV)) h := by
  have := wf_height hP.wf
  exact on_read k64 (EnumerateP_readOnly f _) (EnumerateA_spec (by omega) hP.rep)

theorem enumB_spec {B : ATree (ND 64 V)} (hB : Sub h B) :
    wp W (on64 (EnumerateP f (ptr B))) (fun r h' => h' = h ∧ r = (Num.Enumerate (erase B)).map (ND.mapV HV.user)) h := by
  have := wf_height hB.2
  exact on_read k64 (EnumerateP_readOnly f _) (EnumerateA_spec (by omega) hB.1)
end

end Verif.IPHeap
