import Verif.UIPHeap.Model
import Verif.NumHeap.Map
import Verif.Num.Shape
import Verif.UIP.History

/-! # What objects of the generated IP trees stand for -/

namespace Verif.UIPHeap
open Verif Verif.Heap Verif.Heap.Prog Verif.Heap.ATree Verif.Num Verif.NumHeap
open Verif.UIP (Tree)

variable {V : Type}

/-- A nested tree with the addresses of its nodes. -/
abbrev AB (V : Type) := ATree (ND 64 V)

instance : Inhabited (AB V) := ⟨.nil⟩

/-- A nested tree in memory. -/
def Sub (h : Heap (UD V)) (B : AB V) : Prop := Rep (k64.view h) B ∧ WF [] (erase B)

/-- `root64` in memory. -/
structure Rep6 (h : Heap (UD V)) (P : ATree (ND 64 (AB V))) : Prop where
  rep : Rep (k64s.view h) (mapA ptr P)
  sub : ∀ v ∈ vals (erase P), Sub h v
  wf : WF [] (erase P)

/-- Occurrences of an address in `root64` and its nested trees. -/
def tot (x : Addr) (P : ATree (ND 64 (AB V))) : Nat := cnt x P + sumV (cnt x) (erase P)

theorem sub_le_sum (g : AB V → Nat) {t : NTree 64 (AB V)} {v : AB V} (h : v ∈ vals t) : g v ≤ sumV g t := by
  rw [sumV_vals]
  revert h
  generalize vals t = vs
  intro h
  induction vs with
  | nil => cases h
  | cons a l ih =>
    rcases List.mem_cons.1 h with rfl | h
    · simp
    · have := ih h; simp; omega

theorem cntSub_le_tot {P : ATree (ND 64 (AB V))} {B : AB V} (h : B ∈ vals (erase P)) (x : Addr) : cnt x B ≤ tot x P := by
  have := sub_le_sum (cnt x) h
  unfold tot; omega

theorem Sub.frame {h h' : Heap (UD V)} {B : AB V} (hB : Sub h B) (hn : h.next ≤ h'.next) (hm : ∀ a, 1 ≤ cnt a B → h'.mem a = h.mem a) : Sub h' B :=
  ⟨rep_frame hB.1 hn fun a ha => k64.view_frame (hm a (by simpa using ha)), hB.2⟩

theorem Sub.lt {h : Heap (UD V)} {B : AB V} (hB : Sub h B) {a : Addr} (ha : 1 ≤ cnt a B) : a < h.next :=
  rep_lt hB.1 (by simpa using ha)

theorem Sub.zero {h : Heap (UD V)} {B : AB V} (hB : Sub h B) {a : Addr} (ha : h.next ≤ a) : cnt a B = 0 := by
  have := fun q => hB.lt (a := a) q
  omega

theorem sum_zero (g : AB V → Nat) {t : NTree 64 (AB V)} (h : ∀ v ∈ vals t, g v = 0) : sumV g t = 0 := by
  rw [sumV_vals]
  revert h
  generalize vals t = vs
  intro h
  induction vs with
  | nil => rfl
  | cons a l ih =>
    simp [h a (by simp), ih fun v hv => h v (by simp [hv])]

theorem Rep6.zero {h : Heap (UD V)} {P : ATree (ND 64 (AB V))} (hP : Rep6 h P) {a : Addr} (ha : h.next ≤ a) : tot a P = 0 := by
  have h1 := rep_zero hP.rep a ha
  have h2 := sum_zero (cnt a) fun v hv => (hP.sub v hv).zero ha
  simp only [cnt_mapA] at h1
  unfold tot; omega

theorem Rep6.lt {h : Heap (UD V)} {P : ATree (ND 64 (AB V))} (hP : Rep6 h P) {a : Addr} (ha : 1 ≤ tot a P) : a < h.next := by
  have := fun q => hP.zero (a := a) q; omega

theorem Rep6.frame {h h' : Heap (UD V)} {P : ATree (ND 64 (AB V))} (hP : Rep6 h P) (hn : h.next ≤ h'.next)
    (hm : ∀ a, 1 ≤ tot a P → h'.mem a = h.mem a) : Rep6 h' P where
  rep := rep_frame hP.rep hn fun a ha => k64s.view_frame (hm a (by simp at ha; unfold tot; omega))
  sub v hv := by
    refine (hP.sub v hv).frame hn fun a ha => hm a ?_
    have := sub_le_sum (cnt a) hv
    unfold tot; omega
  wf := hP.wf

theorem rep6_nil (h : Heap (UD V)) : Rep6 h .nil := ⟨trivial, by simp [vals], trivial⟩

theorem wf_height {w : Nat} {W : Type} {t : ATree (ND w W)} (h : WF [] (erase t)) : t.height ≤ w + 1 := by
  have := h.height_le (by simp)
  have e := erase_height t
  simp at this; omega

/-- The object in memory: the cell of the `Tree`, the nodes of `root32`, those of `root64` and of its nested trees, each
occurring once, and nothing else. -/
def TRep (h : Heap (UD V)) (r : Ptr) (t : Option (Tree V)) (F : Addr → Prop) : Prop :=
  match t with
  | none => r = none ∧ ∀ x, ¬ F x
  | some t => ∃ a A P, r = some a ∧ h.mem a = some ⟨.tree, ptr A, ptr P⟩ ∧ a < h.next ∧ (Rep (k32.view h) A ∧ WF [] (erase A) ∧ ∀ x, cnt x A ≤ 1) ∧
      (Rep6 h P ∧ ∀ x, tot x P ≤ 1) ∧ t = ⟨erase A, mapT erase (erase P)⟩ ∧ ∀ x, F x ↔ x = a ∨ 1 ≤ cnt x A ∨ 1 ≤ tot x P

theorem TRep.lt {h : Heap (UD V)} {r : Ptr} {t : Option (Tree V)} {F : Addr → Prop} (hT : TRep h r t F) {a : Addr} (ha : F a) : a < h.next := by
  cases t with
  | none => exact (hT.2 a ha).elim
  | some t =>
    obtain ⟨b, A, P, _, _, h1, ⟨h2, _⟩, ⟨h3, _⟩, _, h4⟩ := hT
    rcases (h4 a).1 ha with rfl | q | q
    · exact h1
    · exact rep_lt h2 q
    · exact h3.lt q

theorem TRep.frame {h h' : Heap (UD V)} {r : Ptr} {t : Option (Tree V)} {F : Addr → Prop} (hT : TRep h r t F) (hn : h.next ≤ h'.next)
    (hm : ∀ a, F a → h'.mem a = h.mem a) : TRep h' r t F := by
  cases t with
  | none => exact hT
  | some t =>
    obtain ⟨b, A, P, h0, h5, h1, ⟨h2, h6, h7⟩, ⟨h3, h8⟩, h9, h4⟩ := hT
    refine ⟨b, A, P, h0, ?_, by omega, ⟨rep_frame h2 hn fun a ha => k32.view_frame (hm a ((h4 a).2 (.inr (.inl ha)))), h6, h7⟩,
      ⟨h3.frame hn fun a ha => hm a ((h4 a).2 (.inr (.inr ha))), h8⟩, h9, h4⟩
    rw [hm b ((h4 b).2 (.inl rfl))]; exact h5

/-! ## Programs on parts of the memory -/

theorem wp_rootsP {W : Addr → Prop} {Q : Ptr × Ptr → Heap (UD V) → Prop} {h : Heap (UD V)} {a : Addr} {x y : Ptr}
    (ha : h.mem a = some ⟨.tree, x, y⟩) : wp W (rootsP (some a)) Q h ↔ Q (x, y) h := by
  have e : rootsP (V := V) (some a) = .read a fun c => match kTree.cell c with
    | some c => .ret (c.c0, c.c1)
    | none => .stop .panic := by
    simp only [rootsP, load, Bind.bind, Prog.bind, Prog.lift]
    congr 1; funext c
    cases kTree.cell c <;> rfl
  rw [e]
  simp only [wp, ha, Option.some.injEq, exists_eq_left']
  rfl

theorem wp_rootsOrNilP_none {W : Addr → Prop} {Q : Ptr × Ptr → Heap (UD V) → Prop} {h : Heap (UD V)} :
    wp W (rootsOrNilP none) Q h ↔ Q (none, none) h := Iff.rfl

theorem wp_rootsOrNilP_some {W : Addr → Prop} {Q : Ptr × Ptr → Heap (UD V) → Prop} {h : Heap (UD V)} {a : Addr} {x y : Ptr}
    (ha : h.mem a = some ⟨.tree, x, y⟩) : wp W (rootsOrNilP (some a)) Q h ↔ Q (x, y) h := wp_rootsP ha

theorem wp_newTreeP {W : Addr → Prop} {Q : Ptr → Heap (UD V) → Prop} {h : Heap (UD V)} {x y : Ptr} :
    wp W (newTreeP x y) Q h ↔ Q (some h.next) (h.push ⟨.tree, x, y⟩) := Iff.rfl

theorem wp_setRoot32 {W : Addr → Prop} {Q : Unit → Heap (UD V) → Prop} {h : Heap (UD V)} {a : Addr} {x y r : Ptr}
    (ha : h.mem a = some ⟨.tree, x, y⟩) : wp W (setRoot32 (some a) r) Q h ↔ W a ∧ Q () (h.put a ⟨.tree, r, y⟩) := by
  simp only [setRoot32, upd, Prog.lift, wp, ha, Option.some.injEq, exists_eq_left']
  have : kTree.cell (⟨.tree, x, y⟩ : Cell (UD V)) = some ⟨(), x, y⟩ := rfl
  simp only [this, wp, ha]
  simp [Cell.map, kTree]

theorem wp_setRoot64 {W : Addr → Prop} {Q : Unit → Heap (UD V) → Prop} {h : Heap (UD V)} {a : Addr} {x y r : Ptr}
    (ha : h.mem a = some ⟨.tree, x, y⟩) : wp W (setRoot64 (some a) r) Q h ↔ W a ∧ Q () (h.put a ⟨.tree, x, r⟩) := by
  simp only [setRoot64, upd, Prog.lift, wp, ha, Option.some.injEq, exists_eq_left']
  have : kTree.cell (⟨.tree, x, y⟩ : Cell (UD V)) = some ⟨(), x, y⟩ := rfl
  simp only [this, wp, ha]
  simp [Cell.map, kTree]

end Verif.UIPHeap
