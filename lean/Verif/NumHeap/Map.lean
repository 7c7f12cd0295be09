import Verif.NumHeap.History
import Verif.Num.Map

/-! # numtree on memory, with the values seen through a function -/

namespace Verif.NumHeap
open Verif Verif.Heap Verif.Heap.Prog Verif.Heap.ATree Verif.Num

variable {w : Nat} {V W : Type}

/-- Change all values of an annotated tree. -/
def mapA (g : V → W) (t : ATree (ND w V)) : ATree (ND w W) := t.map fun ad => (ad.1, ad.2.mapV g)

@[simp] theorem mapA_nil (g : V → W) : mapA g (.nil : ATree (ND w V)) = .nil := rfl
@[simp] theorem mapA_node (g : V → W) (ad : Addr × ND w V) (l r : ATree (ND w V)) :
    mapA g (.node ad l r) = .node (ad.1, ad.2.mapV g) (mapA g l) (mapA g r) := rfl
@[simp] theorem ptr_mapA (g : V → W) (t : ATree (ND w V)) : ptr (mapA g t) = ptr t := by cases t <;> rfl
@[simp] theorem height_mapA (g : V → W) (t : ATree (ND w V)) : (mapA g t).height = t.height := BTree.height_map _ t

@[simp] theorem erase_mapA (g : V → W) (t : ATree (ND w V)) : erase (mapA g t) = mapT g (erase t) := by
  induction t with
  | nil => rfl
  | node ad l r ihl ihr => simp [ihl, ihr]

@[simp] theorem cnt_mapA (g : V → W) (x : Addr) (t : ATree (ND w V)) : cnt x (mapA g t) = cnt x t := by
  induction t with
  | nil => rfl
  | node ad l r ihl ihr => simp [ihl, ihr]

/-- Values can be put back. -/
theorem mapA_split (g : V → W) (A : ATree (ND w W)) (U : NTree w V) (h : erase A = mapT g U) : ∃ P, erase P = U ∧ mapA g P = A := by
  induction A generalizing U with
  | nil =>
    cases U with
    | nil => exact ⟨.nil, rfl, rfl⟩
    | node n l r => simp at h
  | node ad l r ihl ihr =>
    cases U with
    | nil => simp at h
    | node n x y =>
      simp only [erase_node, mapT_node, BTree.node.injEq] at h
      obtain ⟨h1, h2, h3⟩ := h
      obtain ⟨P, p1, p2⟩ := ihl x h2
      obtain ⟨Q, q1, q2⟩ := ihr y h3
      refine ⟨.node (ad.1, n) P Q, by simp [p1, q1], ?_⟩
      simp only [mapA_node, p2, q2, ← h1]

variable [KeySize w]

theorem InsertA_spec [Inhabited V] [Inhabited W] {g : V → W} (hg : g default = default) {f : Nat} {t : ATree (ND w V)} (hf : t.height < f)
    {h : Heap (ND w W)} (ht : Rep h (mapA g t)) (key : BitVec w) (bits : Int) (v : V) :
    wp (fun a => h.next ≤ a) (InsertP f (ptr t) key bits (g v)) (fun p h' => ∃ t', p = ptr t' ∧ Rep h' (mapA g t') ∧
      erase t' = Num.Insert (erase t) key bits v ∧ ∀ x, cnt x t' ≤ if h.next ≤ x then 1 else cnt x t) h := by
  have := InsertP_spec (t := mapA g t) (by simpa using hf) ht key bits (g v)
  rw [ptr_mapA] at this
  refine wp_conseq this ?_
  rintro p h' ⟨A, h1, h2, h3, h4⟩
  rw [erase_mapA, Insert_map g hg] at h3
  obtain ⟨P, p1, rfl⟩ := mapA_split g A _ h3
  exact ⟨P, by simpa using h1, h2, p1, fun x => by simpa using h4 x⟩

theorem InplaceInsertA_spec [Inhabited V] [Inhabited W] {g : V → W} (hg : g default = default) {f : Nat} {t : ATree (ND w V)} (hf : t.height < f)
    {h : Heap (ND w W)} (ht : Rep h (mapA g t)) (hc : ∀ x, cnt x t ≤ 1) (key : BitVec w) (bits : Int) (v : V) :
    wp (fun a => 1 ≤ cnt a t ∨ h.next ≤ a) (InplaceInsertP f (ptr t) key bits (g v)) (fun p h' => ∃ t', p = ptr t' ∧ Rep h' (mapA g t') ∧
      erase t' = Num.Insert (erase t) key bits v ∧ ∀ x, cnt x t' ≤ if h.next ≤ x then 1 else cnt x t) h := by
  have := InplaceInsertP_spec (t := mapA g t) (by simpa using hf) ht (by simpa using hc) key bits (g v)
  rw [ptr_mapA] at this
  simp only [cnt_mapA] at this
  refine wp_conseq this ?_
  rintro p h' ⟨A, h1, h2, h3, h4⟩
  rw [erase_mapA, Insert_map g hg] at h3
  obtain ⟨P, p1, rfl⟩ := mapA_split g A _ h3
  exact ⟨P, by simpa using h1, h2, p1, fun x => by simpa using h4 x⟩

theorem DeleteA_spec {g : V → W} {f : Nat} {t : ATree (ND w V)} (hf : t.height < f)
    {h : Heap (ND w W)} (ht : Rep h (mapA g t)) (key : BitVec w) (bits : Int) :
    wp (fun a => h.next ≤ a) (DeleteP f (ptr t) key bits) (fun r h' => ∃ t', r.1 = ptr t' ∧ Rep h' (mapA g t') ∧
      (erase t', r.2) = Num.Delete (erase t) key bits ∧ ∀ x, cnt x t' ≤ if h.next ≤ x then 1 else cnt x t) h := by
  have := DeleteP_spec (t := mapA g t) (by simpa using hf) ht key bits
  rw [ptr_mapA] at this
  refine wp_conseq this ?_
  rintro r h' ⟨A, h1, h2, h3, h5, h4⟩
  rw [erase_mapA, Delete_map g] at h3
  have h6 := congrArg Prod.fst h3
  have h7 := congrArg Prod.snd h3
  obtain ⟨P, p1, rfl⟩ := mapA_split g A _ h6
  refine ⟨P, by simpa using h1, h2, ?_, fun x => by simpa using h4 x⟩
  rw [p1]
  simp only at h7
  rw [h7]

theorem ExactMatchA_spec {g : V → W} {f : Nat} {t : ATree (ND w V)} (hf : t.height < f)
    {h : Heap (ND w W)} (ht : Rep h (mapA g t)) (key : BitVec w) (bits : Int) :
    wp (fun _ => False) (ExactMatchP f (ptr t) key bits) (fun r h' => h' = h ∧ r = (Num.ExactMatch (erase t) key bits).map g) h := by
  have := ExactMatchP_spec (t := mapA g t) (by simpa using hf) ht key bits
  rwa [ptr_mapA, erase_mapA, ExactMatch_map] at this

theorem MatchA_spec {g : V → W} {f : Nat} {t : ATree (ND w V)} (hf : t.height < f)
    {h : Heap (ND w W)} (ht : Rep h (mapA g t)) (key : BitVec w) (bits : Int) :
    wp (fun _ => False) (MatchP f (ptr t) key bits) (fun r h' => h' = h ∧ r = (Num.Match (erase t) key bits).map g) h := by
  have := MatchP_spec (t := mapA g t) (by simpa using hf) ht key bits
  rwa [ptr_mapA, erase_mapA, Match_map] at this

omit [KeySize w] in
theorem EnumerateA_spec {g : V → W} {f : Nat} {t : ATree (ND w V)} (hf : t.height < f)
    {h : Heap (ND w W)} (ht : Rep h (mapA g t)) :
    wp (fun _ => False) (EnumerateP f (ptr t)) (fun r h' => h' = h ∧ r = (Num.Enumerate (erase t)).map (ND.mapV g)) h := by
  have := EnumerateP_spec (t := mapA g t) (by simpa using hf) ht
  rw [ptr_mapA, erase_mapA] at this
  unfold Num.Enumerate at *
  rwa [enumerate_map] at this

end Verif.NumHeap
