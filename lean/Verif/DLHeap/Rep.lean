import Verif.DLHeap.Model
import Verif.RBHeap.History
import Verif.DL.Step

/-! # dltree objects in memory -/

namespace Verif.DLHeap
open Verif Verif.Heap Verif.Heap.Prog Verif.Heap.ATree Verif.RB Verif.RBHeap Verif.DL Verif.Domain

variable {V E : Type} {M : DLMem V E}

theorem erase_size {D : Type} (t : ATree D) : (erase t).size = t.size := by
  induction t with
  | nil => rfl
  | node ad l r ihl ihr => simp [BTree.size, ihl, ihr]

/-- The `Tree` cell: absent for a nil `*Tree`, which has no nodes. -/
def TCell (M : DLMem V E) (h : Heap E) (t : Ptr) (A : ATree (RD Bytes V)) : Prop :=
  match t with
  | none => A = .nil
  | some b => h.mem b = some ⟨M.kT.inj (), ptr A, none⟩ ∧ b < h.next

/-- A label tree of at most `m` nodes in memory. -/
structure LRep (M : DLMem V E) (m : Nat) (h : Heap E) (t : Ptr) (A : ATree (RD Bytes V)) : Prop where
  cell : TCell M h t A
  rep : Rep (M.kR.view h) A
  once : ∀ x, cnt x A ≤ 1
  bal : Balanced (erase A)
  srt : Sorted cmpLabel (RB.enumerate (erase A))
  size : A.size ≤ m

/-- The tree the pointer leads to. -/
def treeOf (t : Ptr) (A : ATree (RD Bytes V)) : Option (Tree V) :=
  match t with
  | none => none
  | some _ => some ⟨erase A⟩

/-- Its addresses. -/
def LFoot (t : Ptr) (A : ATree (RD Bytes V)) (x : Addr) : Prop := t = some x ∨ 1 ≤ cnt x A

@[simp] theorem treeOf_none (A : ATree (RD Bytes V)) : treeOf none A = none := rfl
@[simp] theorem treeOf_some (b : Addr) (A : ATree (RD Bytes V)) : treeOf (some b) A = some ⟨erase A⟩ := rfl

theorem LRep.rootOf {m : Nat} {h : Heap E} {t : Ptr} {A : ATree (RD Bytes V)} (hL : LRep M m h t A) : rootOf (treeOf t A) = erase A := by
  cases t with
  | none => have : A = .nil := hL.cell; subst this; rfl
  | some b => rfl

theorem LRep.ok {m : Nat} {h : Heap E} {t : Ptr} {A : ATree (RD Bytes V)} (hL : LRep M m h t A) : DL.Ok (treeOf t A) := by
  unfold DL.Ok; rw [hL.rootOf]; exact ⟨hL.bal, hL.srt⟩

theorem LRep.mono {m m' : Nat} {h : Heap E} {t : Ptr} {A : ATree (RD Bytes V)} (hL : LRep M m h t A) (hm : m ≤ m') : LRep M m' h t A :=
  { hL with size := by have := hL.size; omega }

/-- The greatest height of a label tree of at most `m` nodes that the proofs need to know of. -/
def tall (m : Nat) : Nat := min m (2 * Nat.log2 (m + 1))

theorem tall_le (m : Nat) : tall m ≤ m := Nat.min_le_left _ _
theorem tall_lt {m f : Nat} (h : m < f) : tall m < f := Nat.lt_of_le_of_lt (tall_le m) h
theorem tall_two {m f : Nat} (h : 2 * m + 3 ≤ f) : 2 * tall m + 3 ≤ f := by have := tall_le m; omega
theorem tall_log (m : Nat) : tall m ≤ 2 * Nat.log2 (m + 1) := Nat.min_le_right _ _

theorem log2_mono {a b : Nat} (ha : a ≠ 0) (h : a ≤ b) : Nat.log2 a ≤ Nat.log2 b := (Nat.le_log2 (by omega)).2 (Nat.le_trans (Nat.log2_self_le ha) h)

theorem tall_mono {m m' : Nat} (h : m ≤ m') : tall m ≤ tall m' := by
  unfold tall
  have := log2_mono (a := m + 1) (b := m' + 1) (by omega) (by omega)
  omega

theorem LRep.height {m : Nat} {h : Heap E} {t : Ptr} {A : ATree (RD Bytes V)} (hL : LRep M m h t A) : A.height ≤ tall m := by
  have h1 := hL.size
  have h2 := height_le_size A
  have h3 := hL.bal.height_le
  rw [erase_height, erase_size] at h3
  have := log2_mono (a := A.size + 1) (b := m + 1) (by omega) (by omega)
  unfold tall
  omega

theorem LRep.lt {m : Nat} {h : Heap E} {t : Ptr} {A : ATree (RD Bytes V)} (hL : LRep M m h t A) {x : Addr} (hx : LFoot t A x) : x < h.next := by
  rcases hx with rfl | hx
  · exact hL.cell.2
  · exact rep_lt hL.rep hx

theorem LRep.frame {m : Nat} {h h' : Heap E} {t : Ptr} {A : ATree (RD Bytes V)} (hL : LRep M m h t A) (hn : h.next ≤ h'.next)
    (hm : ∀ x, LFoot t A x → h'.mem x = h.mem x) : LRep M m h' t A where
  cell := by
    cases t with
    | none => exact hL.cell
    | some b =>
      obtain ⟨h1, h2⟩ := hL.cell
      refine ⟨?_, by omega⟩
      rw [hm b (.inl rfl)]; exact h1
  rep := rep_frame hL.rep hn fun a ha => M.kR.view_frame (hm a (.inr ha))
  once := hL.once
  bal := hL.bal
  srt := hL.srt
  size := hL.size

theorem LRep.nil (m : Nat) (h : Heap E) : LRep M m h none .nil :=
  ⟨rfl, trivial, by simp, balanced_nil, List.Pairwise.nil, by simp [BTree.size]⟩

/-- The `Tree` cell is not a node. -/
theorem LRep.cell_ne {m : Nat} {h : Heap E} {b : Addr} {A : ATree (RD Bytes V)} (hL : LRep M m h (some b) A) : cnt b A = 0 := by
  by_cases hc : 1 ≤ cnt b A
  · exfalso
    obtain ⟨h1, _⟩ := hL.cell
    have key : ∀ B : ATree (RD Bytes V), Rep (M.kR.view h) B → 1 ≤ cnt b B → False := by
      intro B
      induction B with
      | nil => simp
      | node ad l r ihl ihr =>
        rintro ⟨r1, r2, r3, r4⟩ hc
        simp only [cnt_node] at hc
        by_cases e : ad.1 = b
        · have q := M.kR.view_mem.1 r1
          rw [e, h1] at q
          have q : M.kT.inj () = M.kR.inj ad.2 := by simp [Cell.map] at q; exact q.1
          have s1 := M.sep ad.2
          rw [← q, M.kT.prj_inj] at s1
          cases s1
        · by_cases e1 : 1 ≤ cnt b l
          · exact ihl r3 e1
          · exact ihr r4 (by simp [e] at hc; omega)
    exact key A hL.rep hc
  · omega

/-! ## Programs -/

section
variable {W : Addr → Prop} {h : Heap E}

theorem wp_rootP {b : Addr} {x y : Ptr} {Q : Ptr → Heap E → Prop} (hb : h.mem b = some ⟨M.kT.inj (), x, y⟩) :
    wp W (rootP M (some b)) Q h ↔ Q x h := by
  have e : rootP M (some b) = .read b fun c => match M.kT.cell c with
    | some c => .ret c.c0
    | none => .stop .panic := by
    simp only [rootP, load, Bind.bind, Prog.bind, Prog.lift]
    congr 1; funext c
    cases M.kT.cell c <;> rfl
  rw [e]
  have hc : M.kT.cell ⟨M.kT.inj (), x, y⟩ = some ⟨(), x, y⟩ := M.kT.cell_map ⟨(), x, y⟩
  simp only [wp, hb, Option.some.injEq, exists_eq_left', hc]

theorem wp_newTreeP {r : Ptr} {Q : Ptr → Heap E → Prop} :
    wp W (newTreeP M r) Q h ↔ Q (some h.next) (h.push ⟨M.kT.inj (), r, none⟩) := Iff.rfl

theorem wp_setRootP {b : Addr} {x y r : Ptr} {Q : Unit → Heap E → Prop} (hb : h.mem b = some ⟨M.kT.inj (), x, y⟩) :
    wp W (setRootP M (some b) r) Q h ↔ W b ∧ Q () (h.put b ⟨M.kT.inj (), r, y⟩) := by
  have hc : M.kT.cell ⟨M.kT.inj (), x, y⟩ = some ⟨(), x, y⟩ := M.kT.cell_map ⟨(), x, y⟩
  simp only [setRootP, upd, Prog.lift, wp, hb, Option.some.injEq, exists_eq_left', hc]
  simp [Cell.map]

theorem wp_rootOrNilP {m : Nat} {t : Ptr} {A : ATree (RD Bytes V)} (hL : LRep M m h t A) {Q : Ptr → Heap E → Prop} :
    wp W (rootOrNilP M t) Q h ↔ Q (ptr A) h := by
  cases t with
  | none => have : A = .nil := hL.cell; subst this; exact Iff.rfl
  | some b => simp only [rootOrNilP, ne_eq, reduceCtorEq, not_false_eq_true, if_true]; exact wp_rootP hL.cell.1

theorem RawGetP_spec {m f : Nat} {t : Ptr} {A : ATree (RD Bytes V)} (hL : LRep M m h t A) (hf : tall m < f) (key : Bytes) :
    wp W (RawGetP M f t key) (fun r h' => h' = h ∧ r = RB.get cmpLabel (erase A) key) h := by
  unfold RawGetP
  cases t with
  | none => have : A = .nil := hL.cell; subst this; exact ⟨rfl, rfl⟩
  | some b =>
    simp only [reduceCtorEq, if_false]
    rw [wp_bind, wp_rootP hL.cell.1]
    have := hL.height
    exact on_read M.kR (getP_readOnly _ _ _) (getP_spec (by omega) hL.rep key)

theorem RawEnumerateP_spec {m f : Nat} {t : Ptr} {A : ATree (RD Bytes V)} (hL : LRep M m h t A) (hf : tall m < f) :
    wp W (RawEnumerateP M f t) (fun r h' => h' = h ∧ r = RB.enumerate (erase A)) h := by
  unfold RawEnumerateP
  cases t with
  | none => have : A = .nil := hL.cell; subst this; exact ⟨rfl, rfl⟩
  | some b =>
    simp only [reduceCtorEq, if_false]
    rw [wp_bind, wp_rootP hL.cell.1]
    have := hL.height
    exact on_read M.kR (enumerateP_readOnly _ _) (enumerateP_spec (by omega) hL.rep)

theorem IsEmptyP_spec {m : Nat} {t : Ptr} {A : ATree (RD Bytes V)} (hL : LRep M m h t A) :
    wp W (IsEmptyP M t) (fun r h' => h' = h ∧ r = (erase A).isNil) h := by
  unfold IsEmptyP
  cases t with
  | none => have : A = .nil := hL.cell; subst this; exact ⟨rfl, rfl⟩
  | some b =>
    simp only [reduceCtorEq, if_false]
    rw [wp_bind, wp_rootP hL.cell.1]
    refine ⟨rfl, ?_⟩
    cases A <;> simp

theorem humanL_append (a b : List (Bytes × V)) : humanL (a ++ b) = (humanL a).bind fun x => (humanL b).map fun y => x ++ y := by
  induction a with
  | nil => simp only [List.nil_append, humanL, Option.bind_some]; cases humanL b <;> rfl
  | cons p a ih =>
    obtain ⟨k, v⟩ := p
    simp only [List.cons_append, humanL, ih]
    cases MakeHumanReadableLabel k <;> cases humanL a <;> cases humanL b <;> simp

theorem humanL_eq (r : RTree Bytes V) : humanL (RB.enumerate r) = enumerateN r := by
  induction r with
  | nil => rfl
  | node d l r ihl ihr =>
    simp only [RB.enumerate, humanL_append, humanL, enumerateN, ihl, ihr]
    cases enumerateN l <;> cases MakeHumanReadableLabel d.key <;> cases enumerateN r <;> simp

theorem EnumerateP_spec {m f : Nat} {t : Ptr} {A : ATree (RD Bytes V)} (hL : LRep M m h t A) (hf : tall m < f) {l : List (Bytes × V)}
    (hl : enumerateN (erase A) = some l) : wp W (EnumerateP M f t) (fun r h' => h' = h ∧ r = l) h := by
  unfold EnumerateP
  rw [wp_bind]
  refine wp_conseq (RawEnumerateP_spec hL hf) ?_
  rintro r h' ⟨e, rfl⟩
  rw [humanL_eq, hl]
  exact ⟨e, rfl⟩

/-- A fresh `Tree` cell over nodes already in memory. -/
theorem newTree_rep {m : Nat} {A : ATree (RD Bytes V)} (rep : Rep (M.kR.view h) A) (once : ∀ x, cnt x A ≤ 1) (bal : Balanced (erase A))
    (srt : Sorted cmpLabel (RB.enumerate (erase A))) (size : A.size ≤ m) :
    LRep M m (h.push ⟨M.kT.inj (), ptr A, none⟩) (some h.next) A where
  cell := ⟨by simp, by simp⟩
  rep := by
    refine rep_frame rep (by simp) fun a ha => M.kR.view_frame ?_
    have := rep_lt rep ha
    simp only [Kind.view_next] at this
    rw [Heap.mem_push, if_neg (by omega)]
  once := once
  bal := bal
  srt := srt
  size := size

theorem cnt_two {D : Type} {A A' : ATree D} {n : Nat} (h : ∀ x, cnt x A' ≤ if n ≤ x then 1 else cnt x A) (h1 : ∀ x, cnt x A ≤ 1) :
    (∀ x, cnt x A' ≤ 1) ∧ ∀ x, 1 ≤ cnt x A' → n ≤ x ∨ 1 ≤ cnt x A := by
  constructor
  · intro x
    have := h x; have := h1 x
    by_cases e : n ≤ x <;> simp [e] at * <;> omega
  · intro x hx
    have := h x
    by_cases e : n ≤ x <;> simp [e] at * <;> omega

theorem get_lookup {t : RTree Bytes V} (hs : Sorted cmpLabel (RB.enumerate t)) {k : Bytes} {v : V} :
    RB.get cmpLabel t k = some v ↔ (k, v) ∈ RB.enumerate t := by
  rw [get_spec cmpLabel_lawful hs]
  constructor
  · intro hx
    cases hl : lookupL cmpLabel k (RB.enumerate t) with
    | none => simp [hl] at hx
    | some p =>
      obtain ⟨k', v'⟩ := p
      simp [hl] at hx; subst hx
      obtain ⟨h6, h7⟩ := (hs.lookupL_iff cmpLabel_lawful k _).1 hl
      cases cmpLabel_eq_zero.1 h7
      exact h6
  · intro hm
    rw [(hs.lookupL_iff cmpLabel_lawful k (k, v)).2 ⟨hm, cmpLabel_lawful.refl k⟩]; rfl

theorem insert_facts [Inhabited V] {t : RTree Bytes V} (hb : Balanced t) (hs : Sorted cmpLabel (RB.enumerate t)) (k : Bytes) (v : V) :
    ∃ T, RB.insert cmpLabel t k v = some T ∧ Balanced T ∧ Sorted cmpLabel (RB.enumerate T) ∧ T.size ≤ t.size + 1 ∧
      ∀ q, RB.get cmpLabel T q = if k = q then some v else RB.get cmpLabel t q := by
  have hok : DL.Ok (some (⟨t⟩ : Tree V)) := ⟨hb, hs⟩
  obtain ⟨t', h1, h2, h3, _⟩ := rawInsert_ok hok k v
  simp only [RawInsert, DL.rootOf, Option.map_eq_some_iff] at h1
  obtain ⟨T, h4, h5⟩ := h1
  cases h5
  exact ⟨T, h4, h2.1, h2.2, insert_size (cmpLabel_lawful.refl k) h4, h3⟩

theorem del_facts {t : RTree Bytes V} (hb : Balanced t) (hs : Sorted cmpLabel (RB.enumerate t)) (k : Bytes) :
    Balanced (RB.del cmpLabel t k).1 ∧ Sorted cmpLabel (RB.enumerate (RB.del cmpLabel t k).1) ∧ (RB.del cmpLabel t k).1.size ≤ t.size ∧
      ∀ q, RB.get cmpLabel (RB.del cmpLabel t k).1 q = if k = q then none else RB.get cmpLabel t q := by
  have hok : DL.Ok (some (⟨t⟩ : Tree V)) := ⟨hb, hs⟩
  obtain ⟨h1, h2⟩ := rawDelete_ok hok k
  exact ⟨h1.1, h1.2, del_size t k, h2⟩

variable [Inhabited V]

theorem RawInsertP_spec {m f : Nat} {t : Ptr} {A : ATree (RD Bytes V)} (hL : LRep M m h t A) (hf : 2 * tall m + 3 ≤ f) (key : Bytes) (v : V) :
    wp (fun a => h.next ≤ a) (RawInsertP M f t key v) (fun p h' => ∃ b A', p = some b ∧ h.next ≤ b ∧ LRep M (m + 1) h' p A' ∧
      RB.insert cmpLabel (erase A) key v = some (erase A') ∧ ∀ x, 1 ≤ cnt x A' → h.next ≤ x ∨ 1 ≤ cnt x A) h := by
  obtain ⟨T, h1, h2, h3, h4, _⟩ := insert_facts hL.bal hL.srt key v
  unfold RawInsertP
  rw [wp_bind, wp_rootOrNilP hL, wp_bind]
  have := hL.height
  refine wp_conseq (on_spec M.kR (insertP_spec hL.rep hL.once (by omega) h1 (erase_height A))) ?_
  rintro p h' ⟨⟨A', rfl, r1, r2, r3⟩, r4, r5⟩
  rw [wp_newTreeP]
  have hs := hL.size
  rw [← r2, erase_size, erase_size] at h4
  obtain ⟨ho, hf'⟩ := cnt_two r3 hL.once
  refine ⟨h'.next, A', rfl, r4, newTree_rep r1 ho (r2 ▸ h2) (r2 ▸ h3) (by omega), by rw [h1, r2], hf'⟩

theorem RawDeleteP_spec {m f : Nat} {t : Ptr} {A : ATree (RD Bytes V)} (hL : LRep M m h t A) (hf : tall m + 1 ≤ f) (key : Bytes) :
    wp (fun a => h.next ≤ a) (RawDeleteP M f t key) (fun p h' => ∃ A', LRep M m h' p.1 A' ∧ (t = none ↔ p.1 = none) ∧
      (erase A', p.2) = RB.del cmpLabel (erase A) key ∧ (∀ b, p.1 = some b → h.next ≤ b) ∧ ∀ x, 1 ≤ cnt x A' → h.next ≤ x ∨ 1 ≤ cnt x A) h := by
  obtain ⟨h2, h3, h4, _⟩ := del_facts hL.bal hL.srt key
  unfold RawDeleteP
  cases t with
  | none =>
    have : A = .nil := hL.cell
    subst this
    exact ⟨.nil, LRep.nil _ _, Iff.rfl, rfl, by simp, by simp⟩
  | some b =>
    simp only [reduceCtorEq, if_false]
    rw [wp_bind, wp_rootP hL.cell.1, wp_bind]
    have := hL.height
    refine wp_conseq (on_spec M.kR (delP_spec (cmp := cmpLabel) hL.rep hL.once (by omega) (key := key) hL.bal)) ?_
    rintro ⟨p, ok⟩ h' ⟨⟨A', e, r1, r2, r3⟩, r4, r5⟩
    simp only at e r2
    subst e
    rw [wp_bind, wp_newTreeP]
    have hs := hL.size
    have r2' : erase A' = (RB.del cmpLabel (erase A) key).1 := by rw [← r2]
    rw [← r2', erase_size, erase_size] at h4
    obtain ⟨ho, hf'⟩ := cnt_two r3 hL.once
    refine ⟨A', newTree_rep r1 ho (r2' ▸ h2) (r2' ▸ h3) (by omega), by simp, r2, ?_, hf'⟩
    rintro _ ⟨rfl⟩; exact r4

theorem RawInplaceInsertP_spec {m f : Nat} {b : Addr} {A : ATree (RD Bytes V)} (hL : LRep M m h (some b) A) (hf : 2 * tall m + 3 ≤ f) (key : Bytes) (v : V) :
    wp (fun a => LFoot (some b) A a ∨ h.next ≤ a) (RawInplaceInsertP M f (some b) key v) (fun _ h' => ∃ A', LRep M (m + 1) h' (some b) A' ∧
      RB.insert cmpLabel (erase A) key v = some (erase A') ∧ ∀ x, 1 ≤ cnt x A' → h.next ≤ x ∨ 1 ≤ cnt x A) h := by
  obtain ⟨T, h1, h2, h3, h4, _⟩ := insert_facts hL.bal hL.srt key v
  unfold RawInplaceInsertP
  rw [wp_bind, wp_rootP hL.cell.1, wp_bind]
  have := hL.height
  have hne := hL.cell_ne
  have hlt := hL.cell.2
  refine wp_mono (W := fun a => 1 ≤ cnt a A ∨ h.next ≤ a) ?_ ?_ (on_spec M.kR (inplaceInsertP_spec hL.rep hL.once (by omega) h1 (erase_height A)))
  · intro a ha
    rcases ha with ha | ha
    · exact .inl (.inr ha)
    · exact .inr ha
  rintro p h' ⟨⟨A', rfl, r1, r2, r3⟩, r4, r5⟩
  have hb : h'.mem b = some ⟨M.kT.inj (), ptr A, none⟩ := by
    rw [r5 b hlt (by omega)]; exact hL.cell.1
  rw [wp_setRootP hb]
  obtain ⟨ho, hf'⟩ := cnt_two r3 hL.once
  refine ⟨.inl (.inl rfl), A', ?_, by rw [h1, r2], hf'⟩
  · have hs := hL.size
    rw [← r2, erase_size, erase_size] at h4
    have hb0 : cnt b A' = 0 := by
      have := hf' b
      simp only [Kind.view_next] at this
      omega
    exact {
      cell := ⟨by simp, by simp; omega⟩
      rep := by
        refine rep_frame r1 (by simp) fun a ha => M.kR.view_frame ?_
        rw [Heap.mem_put, if_neg]; rintro rfl; omega
      once := ho
      bal := r2 ▸ h2
      srt := r2 ▸ h3
      size := by omega }

end

/-! ## Readers only read -/

theorem rootP_readOnly (t : Ptr) : (rootP M t).ReadOnly :=
  Prog.ReadOnly.lift _ ((ReadOnly.load t).bind fun _ => ReadOnly.pure _)

theorem RawGetP_readOnly (f : Nat) (t : Ptr) (key : Bytes) : (RawGetP M f t key).ReadOnly := by
  unfold RawGetP
  split
  · trivial
  · exact (rootP_readOnly t).bind fun _ => (getP_readOnly _ _ _).lift _

theorem RawEnumerateP_readOnly (f : Nat) (t : Ptr) : (RawEnumerateP M f t).ReadOnly := by
  unfold RawEnumerateP
  split
  · trivial
  · exact (rootP_readOnly t).bind fun _ => (enumerateP_readOnly _ _).lift _

theorem EnumerateP_readOnly (f : Nat) (t : Ptr) : (EnumerateP M f t).ReadOnly := by
  unfold EnumerateP
  refine (RawEnumerateP_readOnly f t).bind fun l => ?_
  split <;> trivial

theorem labelP_readOnly (key : Bytes) : (labelP key : Prog E Bytes).ReadOnly := by
  unfold labelP
  split <;> trivial

theorem GetP_readOnly (f : Nat) (t : Ptr) (key : Bytes) : (GetP M f t key).ReadOnly := by
  unfold GetP
  split
  · trivial
  · exact (labelP_readOnly key).bind fun _ => RawGetP_readOnly _ _ _

end Verif.DLHeap
