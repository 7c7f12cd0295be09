import Verif.DomHeap.Model
import Verif.DLHeap.Rep
import Verif.RB.Map

/-! # domaintree objects in memory -/

namespace Verif.DomHeap
open Verif Verif.Heap Verif.Heap.Prog Verif.Heap.ATree Verif.RB Verif.RBHeap Verif.DLHeap Verif.DL Verif.Domain Verif.DomTree

variable {V : Type}

/-- The label tree with the nodes its values point to. -/
def brOf (t : Ptr) (A : ATree (RD Bytes Ptr)) (fn : Ptr → Node V) : Option (DL.Tree (Node V)) :=
  match t with
  | none => none
  | some _ => some ⟨mapT fn (erase A)⟩

/-- The pointer stored for a label. -/
abbrev at_ (A : ATree (RD Bytes Ptr)) (l : Bytes) : Option Ptr := RB.get cmpLabel (erase A) l

/-- A node `n` at `a` with the cells `F`: `t`, `A` are its label tree, `fn` gives the nodes of the stored pointers, `ff` the cells
below each label, `R` says how the nodes below are held. -/
structure NOpen (m : Nat) (h : Heap (DD V)) (R : Addr → Node V → (Addr → Prop) → Prop) (a : Addr) (n : Node V) (F : Addr → Prop)
    (t : Ptr) (A : ATree (RD Bytes Ptr)) (fn : Ptr → Node V) (ff : Bytes → Addr → Prop) : Prop where
  cell : h.mem a = some ⟨.node n.val, t, none⟩
  lt : a < h.next
  lab : LRep dm m h t A
  fn0 : fn none = .new
  br : n.branches = brOf t A fn
  sub : ∀ l p, at_ A l = some p → ∃ c, p = some c ∧ R c (fn p) (ff l)
  emp : ∀ l x, at_ A l = none → ¬ ff l x
  own : ∀ l x, ff l x → x ≠ a ∧ ¬ LFoot t A x
  dis : ∀ l l' x, l ≠ l' → ff l x → ¬ ff l' x
  foot : ∀ x, F x ↔ x = a ∨ LFoot t A x ∨ ∃ l, ff l x

/-- A node of depth less than `k` in memory; label trees have at most `m` nodes. -/
def NRep (m : Nat) (h : Heap (DD V)) : Nat → Addr → Node V → (Addr → Prop) → Prop
  | 0, _, _, _ => False
  | k + 1, a, n, F => ∃ t A fn ff, NOpen m h (NRep m h k) a n F t A fn ff

section
variable {m k : Nat} {h h' : Heap (DD V)} {a : Addr} {n : Node V} {F : Addr → Prop}

theorem NRep.self (hN : NRep m h k a n F) : F a := by
  cases k with
  | zero => exact hN.elim
  | succ k => obtain ⟨t, A, fn, ff, o⟩ := hN; exact (o.foot a).2 (.inl rfl)

theorem NOpen.below {R : Addr → Node V → (Addr → Prop) → Prop} {t : Ptr} {A : ATree (RD Bytes Ptr)} {fn : Ptr → Node V} {ff : Bytes → Addr → Prop}
    (o : NOpen m h R a n F t A fn ff) {l : Bytes} {x : Addr} (hx : ff l x) : ∃ c, at_ A l = some (some c) ∧ R c (fn (some c)) (ff l) := by
  cases e : at_ A l with
  | none => exact (o.emp l x e hx).elim
  | some p =>
    obtain ⟨c, rfl, r⟩ := o.sub l p e
    exact ⟨c, rfl, r⟩

theorem NRep.lt (hN : NRep m h k a n F) {x : Addr} (hx : F x) : x < h.next := by
  induction k generalizing a n F x with
  | zero => exact hN.elim
  | succ k ih =>
    obtain ⟨t, A, fn, ff, o⟩ := hN
    rcases (o.foot x).1 hx with rfl | q | ⟨l, q⟩
    · exact o.lt
    · exact o.lab.lt q
    · obtain ⟨c, _, r⟩ := o.below q
      exact ih r q

theorem NRep.mono {m' : Nat} (hN : NRep m h k a n F) (hm : m ≤ m') : NRep m' h k a n F := by
  induction k generalizing a n F with
  | zero => exact hN.elim
  | succ k ih =>
    obtain ⟨t, A, fn, ff, o⟩ := hN
    refine ⟨t, A, fn, ff, { o with lab := o.lab.mono hm, sub := ?_ }⟩
    intro l p hp
    obtain ⟨c, e, r⟩ := o.sub l p hp
    exact ⟨c, e, ih r⟩

theorem NRep.frame (hN : NRep m h k a n F) (hn : h.next ≤ h'.next) (hm : ∀ x, F x → h'.mem x = h.mem x) : NRep m h' k a n F := by
  induction k generalizing a n F with
  | zero => exact hN.elim
  | succ k ih =>
    obtain ⟨t, A, fn, ff, o⟩ := hN
    refine ⟨t, A, fn, ff, { o with cell := ?_, lt := ?_, lab := ?_, sub := ?_ }⟩
    · rw [hm a ((o.foot a).2 (.inl rfl))]; exact o.cell
    · have := o.lt; omega
    · exact o.lab.frame hn fun x hx => hm x ((o.foot x).2 (.inr (.inl hx)))
    · intro l p hp
      obtain ⟨c, e, r⟩ := o.sub l p hp
      exact ⟨c, e, ih r fun x hx => hm x ((o.foot x).2 (.inr (.inr ⟨l, hx⟩)))⟩

/-- Deeper bound. -/
theorem NRep.deep {k' : Nat} (hN : NRep m h k a n F) (hk : k ≤ k') : NRep m h k' a n F := by
  induction k generalizing k' a n F with
  | zero => exact hN.elim
  | succ k ih =>
    obtain ⟨k', rfl⟩ : ∃ j, k' = j + 1 := ⟨k' - 1, by omega⟩
    obtain ⟨t, A, fn, ff, o⟩ := hN
    refine ⟨t, A, fn, ff, { o with sub := ?_ }⟩
    intro l p hp
    obtain ⟨c, e, r⟩ := o.sub l p hp
    exact ⟨c, e, ih r (by omega)⟩
end

/-! ## Reading and writing a node -/

section
variable {W : Addr → Prop} {h : Heap (DD V)} {a : Addr} {val : Option V} {t y : Ptr}

theorem wp_nodeP {Q : Option V × Ptr → Heap (DD V) → Prop} (ha : h.mem a = some ⟨.node val, t, y⟩) : wp W (nodeP (some a)) Q h ↔ Q (val, t) h := by
  have e : (nodeP (some a) : Prog (DD V) _) = .read a fun c => match kN.cell c with
    | some c => .ret (c.d, c.c0)
    | none => .stop .panic := by
    simp only [nodeP, load, Bind.bind, Prog.bind, Prog.lift]
    congr 1; funext c
    cases kN.cell c <;> rfl
  rw [e]
  have hc : kN.cell ⟨DD.node val, t, y⟩ = some ⟨val, t, y⟩ := kN.cell_map ⟨val, t, y⟩
  simp only [wp, ha, Option.some.injEq, exists_eq_left', hc]

theorem wp_newNodeP {Q : Ptr → Heap (DD V) → Prop} :
    wp W (newNodeP t val) Q h ↔ Q (some h.next) (h.push ⟨.node val, t, none⟩) := Iff.rfl

theorem wp_setBranchesP {t' : Ptr} {Q : Unit → Heap (DD V) → Prop} (ha : h.mem a = some ⟨.node val, t, y⟩) :
    wp W (setBranchesP (some a) t') Q h ↔ W a ∧ Q () (h.put a ⟨.node val, t', y⟩) := by
  have hc : kN.cell ⟨DD.node val, t, y⟩ = some ⟨val, t, y⟩ := kN.cell_map ⟨val, t, y⟩
  simp only [setBranchesP, upd, Prog.lift, wp, ha, Option.some.injEq, exists_eq_left', hc]
  simp [Cell.map, kN]

theorem wp_setValP {v : V} {Q : Unit → Heap (DD V) → Prop} (ha : h.mem a = some ⟨.node val, t, y⟩) :
    wp W (setValP (some a) v) Q h ↔ W a ∧ Q () (h.put a ⟨.node (some v), t, y⟩) := by
  have hc : kN.cell ⟨DD.node val, t, y⟩ = some ⟨val, t, y⟩ := kN.cell_map ⟨val, t, y⟩
  simp only [setValP, upd, Prog.lift, wp, ha, Option.some.injEq, exists_eq_left', hc]
  simp [Cell.map, kN]
end

/-- A `Node` cell is not a cell of a label tree. -/
theorem node_not_lab {m : Nat} {h : Heap (DD V)} {a : Addr} {val : Option V} {x y t : Ptr} {A : ATree (RD Bytes Ptr)}
    (ha : h.mem a = some ⟨.node val, x, y⟩) (hL : LRep dm m h t A) : ¬ LFoot t A a := by
  rintro (rfl | hc)
  · have := hL.cell.1
    rw [ha] at this
    simp [dm] at this
  · have key : ∀ B : ATree (RD Bytes Ptr), Rep ((dm (V := V)).kR.view h) B → 1 ≤ cnt a B → False := by
      intro B
      induction B with
      | nil => simp
      | node ad l r ihl ihr =>
        rintro ⟨r1, r2, r3, r4⟩ hc
        simp only [cnt_node] at hc
        by_cases e : ad.1 = a
        · have q := (dm (V := V)).kR.view_mem.1 r1
          rw [e, ha] at q
          simp [Cell.map, dm] at q
        · by_cases e1 : 1 ≤ cnt a l
          · exact ihl r3 e1
          · exact ihr r4 (by simp [e] at hc; omega)
    exact key A hL.rep hc

/-! ## A node with one child still to be finished -/

/-- Another node for one pointer. -/
def updF (fn : Ptr → Node V) (c : Addr) (n' : Node V) (p : Ptr) : Node V := if p = some c then n' else fn p

@[simp] theorem updF_none (fn : Ptr → Node V) (c : Addr) (n' : Node V) : updF fn c n' none = fn none := by simp [updF]
@[simp] theorem updF_self (fn : Ptr → Node V) (c : Addr) (n' : Node V) : updF fn c n' (some c) = n' := by simp [updF]

/-- In `h` the node at `a` is complete but for the node at `c` below it: whatever `c` becomes in a later memory that leaves the
cells `F` alone and does not use them for `c`, the node at `a` is then `G` of it. -/
def Hole (m : Nat) (h : Heap (DD V)) (k : Nat) (a c : Addr) (F : Addr → Prop) (G : Node V → Node V) : Prop :=
  ∀ m' h' n' Fc, m ≤ m' → h.next ≤ h'.next → (∀ x, F x → h'.mem x = h.mem x) → NRep m' h' k c n' Fc → (∀ x, Fc x → ¬ F x) →
    ∃ F', NRep m' h' (k + 1) a (G n') F' ∧ ∀ x, F' x → F x ∨ Fc x

theorem hole_of {m k : Nat} {h : Heap (DD V)} {a c : Addr} {val : Option V} {t : Ptr} {A : ATree (RD Bytes Ptr)} {fn : Ptr → Node V}
    {ff : Bytes → Addr → Prop} {l : Bytes} (cell : h.mem a = some ⟨.node val, t, none⟩) (lt : a < h.next) (lab : LRep dm m h t A)
    (fn0 : fn none = .new) (hc : at_ A l = some (some c))
    (sub : ∀ l' p, l' ≠ l → at_ A l' = some p → ∃ c', p = some c' ∧ c' ≠ c ∧ NRep m h k c' (fn p) (ff l'))
    (emp : ∀ l' x, l' ≠ l → at_ A l' = none → ¬ ff l' x) (own : ∀ l' x, l' ≠ l → ff l' x → x ≠ a ∧ ¬ LFoot t A x)
    (dis : ∀ l1 l2 x, l1 ≠ l → l2 ≠ l → l1 ≠ l2 → ff l1 x → ¬ ff l2 x) :
    Hole m h k a c (fun x => x = a ∨ LFoot t A x ∨ ∃ l', l' ≠ l ∧ ff l' x) (fun n' => .mk (brOf t A (updF fn c n')) val) := by
  intro m' h' n' Fc hm hn he hN hd
  refine ⟨fun x => (x = a ∨ LFoot t A x ∨ ∃ l', l' ≠ l ∧ ff l' x) ∨ Fc x, ?_, fun x hx => hx⟩
  refine ⟨t, A, updF fn c n', fun l' => if l' = l then Fc else ff l', ?_⟩
  exact {
    cell := by rw [he a (.inl rfl)]; exact cell
    lt := by omega
    lab := (lab.mono hm).frame hn fun x hx => he x (.inr (.inl hx))
    fn0 := by simpa using fn0
    br := rfl
    sub := by
      intro l' p hp
      by_cases e : l' = l
      · subst e
        rw [hc] at hp; cases hp
        exact ⟨c, rfl, by simpa using hN⟩
      · obtain ⟨c', rfl, hne, r⟩ := sub l' p e hp
        refine ⟨c', rfl, ?_⟩
        simp only [e, if_false, updF, Option.some.injEq, hne]
        exact (r.mono hm).frame hn fun x hx => he x (.inr (.inr ⟨l', e, hx⟩))
    emp := by
      intro l' x hp
      by_cases e : l' = l
      · subst e; rw [hc] at hp; cases hp
      · simpa [e] using emp l' x e hp
    own := by
      intro l' x hx
      by_cases e : l' = l
      · simp only [e, if_true] at hx
        have := hd x hx
        exact ⟨fun q => this (.inl q), fun q => this (.inr (.inl q))⟩
      · simp only [e, if_false] at hx
        exact own l' x e hx
    dis := by
      intro l1 l2 x hne h1 h2
      by_cases e1 : l1 = l
      · have e2 : l2 ≠ l := fun q => hne (e1.trans q.symm)
        simp only [e1, if_true] at h1
        simp only [e2, if_false] at h2
        exact hd x h1 (.inr (.inr ⟨l2, e2, h2⟩))
      · simp only [e1, if_false] at h1
        by_cases e2 : l2 = l
        · simp only [e2, if_true] at h2
          exact hd x h2 (.inr (.inr ⟨l1, e1, h1⟩))
        · simp only [e2, if_false] at h2
          exact dis l1 l2 x e1 e2 hne h1 h2
    foot := by
      intro x
      constructor
      · rintro ((q | q | ⟨l', e, q⟩) | q)
        · exact .inl q
        · exact .inr (.inl q)
        · exact .inr (.inr ⟨l', by simpa [e] using q⟩)
        · exact .inr (.inr ⟨l, by simpa using q⟩)
      · rintro (q | q | ⟨l', q⟩)
        · exact .inl (.inl q)
        · exact .inl (.inr (.inl q))
        · by_cases e : l' = l
          · simp only [e, if_true] at q
            exact .inr q
          · simp only [e, if_false] at q
            exact .inl (.inr (.inr ⟨l', e, q⟩)) }

/-! ## Facts about an opened node -/

section
variable {m k : Nat} {h h' : Heap (DD V)} {a : Addr} {n : Node V} {F : Addr → Prop} {t : Ptr} {A : ATree (RD Bytes Ptr)}
  {fn : Ptr → Node V} {ff : Bytes → Addr → Prop}

theorem brOf_root (hL : LRep dm m h t A) (fn : Ptr → Node V) : rootOf (brOf t A fn) = mapT fn (erase A) := by
  cases t with
  | none => have : A = .nil := hL.cell; subst this; rfl
  | some b => rfl

theorem rawGet_root {W : Type} (b : Option (DL.Tree W)) (l : Bytes) : DL.RawGet b l = RB.get cmpLabel (DL.rootOf b) l := by
  cases b <;> rfl

theorem NOpen.rawGet {R : Addr → Node V → (Addr → Prop) → Prop} (o : NOpen m h R a n F t A fn ff) (l : Bytes) :
    DL.RawGet n.branches l = (at_ A l).map fn := by
  rw [rawGet_root, o.br, brOf_root o.lab, get_map]

theorem NOpen.frame (o : NOpen m h (NRep m h k) a n F t A fn ff) (hn : h.next ≤ h'.next) (hm : ∀ x, F x → h'.mem x = h.mem x) :
    NOpen m h' (NRep m h' k) a n F t A fn ff := by
  refine { o with cell := ?_, lt := ?_, lab := ?_, sub := ?_ }
  · rw [hm a ((o.foot a).2 (.inl rfl))]; exact o.cell
  · have := o.lt; omega
  · exact o.lab.frame hn fun x hx => hm x ((o.foot x).2 (.inr (.inl hx)))
  · intro l p hp
    obtain ⟨c, e, r⟩ := o.sub l p hp
    exact ⟨c, e, r.frame hn fun x hx => hm x ((o.foot x).2 (.inr (.inr ⟨l, hx⟩)))⟩

theorem NOpen.flt (o : NOpen m h (NRep m h k) a n F t A fn ff) {x : Addr} (hx : F x) : x < h.next :=
  NRep.lt (k := k + 1) ⟨t, A, fn, ff, o⟩ hx

theorem NOpen.lab_ne (o : NOpen m h (NRep m h k) a n F t A fn ff) : ¬ LFoot t A a := node_not_lab o.cell o.lab

/-- Nodes under different labels are different. -/
theorem NOpen.ptr_ne (o : NOpen m h (NRep m h k) a n F t A fn ff) {l l' : Bytes} {c c' : Addr} (hne : l ≠ l') (h1 : at_ A l = some (some c))
    (h2 : at_ A l' = some (some c')) : c ≠ c' := by
  rintro rfl
  obtain ⟨_, e, r⟩ := o.sub l _ h1; cases e
  obtain ⟨_, e, r'⟩ := o.sub l' _ h2; cases e
  exact o.dis l l' c hne r.self r'.self

theorem NOpen.below_ff (o : NOpen m h (NRep m h k) a n F t A fn ff) {l : Bytes} {c : Addr} (h1 : at_ A l = some (some c)) : ff l c := by
  obtain ⟨_, e, r⟩ := o.sub l _ h1; cases e
  exact r.self

/-- The same branches in another cell. -/
theorem NOpen.copyV (o : NOpen m h (NRep m h k) a n F t A fn ff) (v : Option V) :
    NOpen m (h.push ⟨.node v, t, none⟩) (NRep m (h.push ⟨.node v, t, none⟩) k) h.next (.mk n.branches v)
      (fun x => x = h.next ∨ LFoot t A x ∨ ∃ l, ff l x) t A fn ff := by
  have hlt : ∀ x, F x → x < h.next := fun x hx => o.flt hx
  have hl : ∀ x, LFoot t A x → x < h.next := fun x hx => hlt x ((o.foot x).2 (.inr (.inl hx)))
  have hf : ∀ l x, ff l x → x < h.next := fun l x hx => hlt x ((o.foot x).2 (.inr (.inr ⟨l, hx⟩)))
  have hm : ∀ x, x < h.next → (h.push ⟨DD.node v, t, none⟩).mem x = h.mem x := by
    intro x hx; rw [Heap.mem_push, if_neg (by omega)]
  refine { o with cell := by simp [Node.val], lt := by simp, lab := ?_, sub := ?_, own := ?_, foot := fun x => Iff.rfl }
  · exact o.lab.frame (by simp) fun x hx => hm x (hl x hx)
  · intro l p hp
    obtain ⟨c, e, r⟩ := o.sub l p hp
    exact ⟨c, e, r.frame (by simp) fun x hx => hm x (hf l x hx)⟩
  · intro l x hx
    exact ⟨by have := hf l x hx; omega, (o.own l x hx).2⟩

/-- The same node in another cell. -/
theorem NOpen.copy (o : NOpen m h (NRep m h k) a n F t A fn ff) :
    NOpen m (h.push ⟨.node n.val, t, none⟩) (NRep m (h.push ⟨.node n.val, t, none⟩) k) h.next n
      (fun x => x = h.next ∨ LFoot t A x ∨ ∃ l, ff l x) t A fn ff := by
  have := o.copyV n.val
  cases n; exact this

/-- The value changed. -/
theorem NOpen.setVal (o : NOpen m h (NRep m h k) a n F t A fn ff) (v : Option V) :
    NOpen m (h.put a ⟨.node v, t, none⟩) (NRep m (h.put a ⟨.node v, t, none⟩) k) a (.mk n.branches v) F t A fn ff := by
  have hm : ∀ x, x ≠ a → (h.put a ⟨DD.node v, t, none⟩).mem x = h.mem x := by
    intro x hx; rw [Heap.mem_put, if_neg hx]
  refine { o with cell := by simp [Node.val], lt := o.lt, lab := ?_, sub := ?_ }
  · refine o.lab.frame (by simp) fun x hx => hm x ?_
    rintro rfl; exact o.lab_ne hx
  · intro l p hp
    obtain ⟨c, e, r⟩ := o.sub l p hp
    refine ⟨c, e, r.frame (by simp) fun x hx => hm x ?_⟩
    rintro rfl; exact (o.own l x hx).1 rfl

end

/-- A new node with a new label tree or none. -/
theorem new_rep (m k : Nat) (h : Heap (DD V)) (val : Option V) :
    NRep m (h.push ⟨.node val, none, none⟩) (k + 1) h.next (.mk none val) (fun x => x = h.next) := by
  refine ⟨none, .nil, fun _ => .new, fun _ _ => False, ?_⟩
  exact {
    cell := by simp [Node.val]
    lt := by simp
    lab := LRep.nil _ _
    fn0 := rfl
    br := rfl
    sub := by intro l p hp; simp [at_, RB.get] at hp
    emp := by simp
    own := by simp
    dis := by simp
    foot := by simp [LFoot] }

end Verif.DomHeap
