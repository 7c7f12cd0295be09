import Verif.Pipe.Script
import Verif.Pipe.Walks
import Verif.Props.Goroutines

/-!
# Loops over Enumerate of numtree and strtree
-/

namespace Verif.Pipe
open Verif.Heap Verif.Heap.Prog Verif.Heap.ATree

/-- The memory of one type of cells. -/
def Kind.refl (D : Type) : Kind D D := ⟨id, some, fun _ => rfl, fun _ _ h => Option.some.inj h⟩

theorem Kind.refl_view {D : Type} (h : Heap D) : (Kind.refl D).view h = h := by
  cases h with
  | mk mem next =>
    simp only [Kind.view, Kind.refl]
    congr 1
    funext a
    cases mem a <;> rfl

theorem pinned_refl {D Y : Type} {g : D → Y} {h : Heap D} {A : ATree D} (hA : Rep h A) :
    Pinned (fun c : Cell D => some (g c.d, c.c0, c.c1)) g (pinOf id h fun a => 1 ≤ cnt a A) A :=
  pinned_of_rep (Kind.refl D) (φ := id) (fun _ => rfl) (by rw [Kind.refl_view]; exact hA) fun _ h => h

theorem size_height {D : Type} (t : BTree D) : t.size < 2 ^ t.height := by
  induction t with
  | nil => simp [BTree.size, BTree.height]
  | node d l r ihl ihr =>
    simp only [BTree.size, BTree.height]
    have h1 : 2 ^ l.height ≤ 2 ^ max l.height r.height := Nat.pow_le_pow_right (by omega) (by omega)
    have h2 : 2 ^ r.height ≤ 2 ^ max l.height r.height := Nat.pow_le_pow_right (by omega) (by omega)
    have h3 : 2 ^ (max l.height r.height + 1) = 2 * 2 ^ max l.height r.height := by rw [Nat.pow_succ]; omega
    omega

section Numtree
open Verif.Num Verif.NumHeap Verif.Props
variable {w : Nat} {V : Type} [LawfulKeySize w] [Inhabited V]

theorem leaves_length {D : Type} (p : D → Bool) (A : ATree D) : (leaves p A).length ≤ A.size := by
  induction A with
  | nil => simp [leaves]
  | node ad l r ihl ihr =>
    simp only [leaves, List.length_append, BTree.size]
    split <;> simp <;> omega

omit [LawfulKeySize w] [Inhabited V] in
theorem leaves_enumerate (A : ATree (ND w V)) : (leaves (fun d : ND w V => d.leaf) A).map Prod.snd = Num.Enumerate (erase A) := by
  induction A with
  | nil => rfl
  | node ad l r ihl ihr =>
    simp only [Num.Enumerate] at ihl ihr
    simp only [leaves, List.map_append, ihl, ihr, Num.Enumerate, erase_node, Num.enumerate]
    split <;> rfl

/-- A loop over `Enumerate` of numtree: the walk sends pointers and the loop body reads the node received. -/
def numLoop (f rounds : Nat) (w : Nat) (V : Type) : Loop (ND w V) Ptr Addr (ND w V) where
  gen r := numGen (fun c => some (c.d.leaf, c.c0, c.c1)) id f r
  item a := do
    let c ← load (some a)
    pure c.d
  rounds := rounds

theorem leaves_mem {D : Type} {p : D → Bool} {A : ATree D} {h : Heap D} (hA : Rep h A) {ad : Addr × D} (hm : ad ∈ leaves p A) :
    1 ≤ cnt ad.1 A ∧ ∃ c, h.mem ad.1 = some c ∧ c.d = ad.2 := by
  induction A with
  | nil => simp [leaves] at hm
  | node bd l r ihl ihr =>
    obtain ⟨h1, _, h3, h4⟩ := hA
    simp only [leaves, List.mem_append] at hm
    rcases hm with (hm | hm) | hm
    · have : ad = bd := by split at hm <;> simp_all
      subst this
      exact ⟨by simp; omega, _, h1, rfl⟩
    · obtain ⟨a1, a2⟩ := ihl h3 hm
      exact ⟨by simp; omega, a2⟩
    · obtain ⟨a1, a2⟩ := ihr h4 hm
      exact ⟨by simp; omega, a2⟩

theorem numLoop_lawful {f rounds : Nat} (hf : w + 2 ≤ f) (hr : 2 ^ (w + 1) ≤ rounds) (n : Nat) :
    (numLoop f rounds w V).Lawful (numImpl f w V).toO (fun l es => NumRight .list l (.list es)) n where
  ok := by
    intro h r l F _ ho
    have hread := numRead_ok hf .list h r l F ho
    obtain ⟨A, rfl, a1, a2, _, rfl⟩ := ho
    have hh : A.height ≤ w + 1 := by
      have := run_height (w := w) (V := V) l
      have e := erase_height A
      rw [show ATree.erase A = Num.run l from a2] at e; omega
    obtain ⟨k, hk⟩ := numGen_out (item := id) (p := fun d : ND w V => d.leaf) (f := f) (by omega) (pinned_refl (g := fun d : ND w V => d.leaf) a1)
    refine ⟨_, (leaves (fun d : ND w V => d.leaf) A).map Prod.snd, k, hk, ?_, ?_, by simp, ?_⟩
    · have h1 := leaves_length (fun d : ND w V => d.leaf) A
      have h2 := size_height A
      have h3 : 2 ^ A.height ≤ 2 ^ (w + 1) := Nat.pow_le_pow_right (by omega) hh
      simp only [List.length_map, numLoop]
      omega
    · rw [leaves_enumerate]
      have h2 : wp (fun _ => False) (numRead f .list (ptr A)) (fun x h' => x = .list (Num.Enumerate (erase A))) h := by
        simp only [numRead, wp_bind, wp_pure]
        exact wp_conseq (EnumerateP_spec (f := f) (by omega) a1) fun x h' hx => by rw [hx.2]
      obtain ⟨x, h', e1, e2, _⟩ := wp_run hread
      obtain ⟨x', h'', e3, e4, _⟩ := wp_run h2
      rw [e1] at e3
      cases e3
      rw [← e4]; exact e2.2
    · intro j b e hb he h' hF
      rw [List.getElem?_map] at hb he
      cases hj : (leaves (fun d : ND w V => d.leaf) A)[j]? with
      | none => rw [hj] at hb; cases hb
      | some ad =>
        rw [hj] at hb he
        cases hb; cases he
        obtain ⟨m1, c, m2, m3⟩ := leaves_mem a1 (List.mem_of_getElem? hj)
        simp only [numLoop, wp_bind]
        refine (wp_load (c := c) ((hF _ m1).trans m2)).2 ?_
        exact ⟨rfl, m3⟩

end Numtree

section Strtree
open Verif.RB Verif.RBHeap Verif.Props
variable {V : Type} [Inhabited V]

/-- A loop over `Enumerate` of strtree: the walk sends pairs (strtree/strtree.go:63-77). -/
def strLoop (f rounds : Nat) (V : Type) : Loop (RD Bytes V) Ptr (Bytes × V) (Bytes × V) where
  gen r := rbWalk (fun c => some ((c.d.key, c.d.value), c.c0, c.c1)) some f r .done
  item b := pure b
  rounds := rounds

theorem inorder_length {D : Type} (A : ATree D) : (inorder A).length = A.size := by
  induction A with
  | nil => rfl
  | node ad l r ihl ihr => simp only [inorder, List.length_append, List.length_cons, BTree.size, ihl, ihr]; omega

theorem inorder_enumerate {K W : Type} (A : ATree (RD K W)) : (inorder A).map (fun d => (d.key, d.value)) = RB.enumerate (erase A) := by
  induction A with
  | nil => rfl
  | node ad l r ihl ihr => simp [inorder, RB.enumerate, ihl, ihr]

theorem erase_size {D : Type} (A : ATree D) : (erase A).size = A.size := by
  induction A with
  | nil => rfl
  | node ad l r ihl ihr => simp [BTree.size, ihl, ihr]

theorem strLoop_lawful {cmp : Bytes → Bytes → Int} (hc : LawfulCmp cmp) {f n rounds : Nat} (hf : 2 * n + 3 ≤ f) (hr : n < rounds) :
    (strLoop f rounds V).Lawful (rbImpl cmp f).toO (fun l es => KVRight cmp .list l (.list es) ∧ es = RB.enumerate ((RB.run cmp l).getD .nil)) n where
  ok := by
    intro h r l F hl ho
    have hread := kvRead_ok hc hf .list h r l F hl ho
    obtain ⟨A, rfl, a1, a2, _, rfl⟩ := ho
    have hh := rb_fuel hc.refl (f := f) (by omega) hl a2
    obtain ⟨k, hk⟩ := (rbWalk_emits (item := some) (o := fun d => (d.key, d.value)) (f := f) hh (pinned_refl (g := fun d : RD Bytes V => (d.key, d.value)) a1) fun _ _ => rfl).out
    refine ⟨_, _, k, hk, ?_, ?_, rfl, ?_⟩
    · have h1 := run_getD (V := V) hc.refl l
      have h2 := run_size hc.refl h1.1
      have h3 := erase_size A
      rw [show erase A = _ from a2] at h3
      rw [List.length_map, inorder_length, ← h3]
      exact Nat.lt_of_le_of_lt (Nat.le_trans h2 hl) hr
    · have h2 : wp (fun _ => False) (kvRead cmp f .list (ptr A)) (fun x h' => x = .list (RB.enumerate (erase A))) h := by
        simp only [kvRead, wp_bind, wp_pure]
        exact wp_conseq (enumerateP_spec hh a1) fun x h' hx => by rw [hx.2]
      obtain ⟨x, h', e1, e2, _⟩ := wp_run hread
      obtain ⟨x', h'', e3, e4, _⟩ := wp_run h2
      rw [e1] at e3
      cases e3
      refine ⟨by rw [inorder_enumerate, ← e4]; exact e2.2, by rw [inorder_enumerate, show erase A = _ from a2]; rfl⟩
    · intro j b e hb he h' _
      rw [hb] at he
      cases he
      exact ⟨rfl, rfl⟩

end Strtree

end Verif.Pipe
