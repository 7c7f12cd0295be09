import Verif.RBHeap.Model

/-! # Executions of the small helpers -/

namespace Verif.RBHeap
open Verif.Heap Verif.Heap.Prog Verif.Heap.ATree Verif.RB

variable {K V : Type} {W : Nat → Prop} {h : Heap (RD K V)}

theorem Heap.put_put_same {D : Type} (h : Heap D) (a : Nat) (c d : Cell D) : (h.put a c).put a d = h.put a d := by
  simp only [Heap.put]
  congr 1
  funext x
  by_cases e : x = a <;> simp [e]

theorem Heap.put_comm {D : Type} (h : Heap D) {a b : Nat} (e : a ≠ b) (c d : Cell D) : (h.put a c).put b d = (h.put b d).put a c := by
  simp only [Heap.put]
  congr 1
  funext x
  by_cases e1 : x = a
  · by_cases e2 : x = b
    · exact absurd (e1.symm.trans e2) e
    · simp [e1, e]
  · by_cases e2 : x = b <;> simp [e1]

theorem wp_setChld {n : Nat} {b : Bool} {q : Ptr} {c : Cell (RD K V)} {Q : Unit → Heap (RD K V) → Prop} (hc : h.mem n = some c) :
    wp W (setChld (some n) b q) Q h ↔ W n ∧ Q () (h.put n (c.setChild b q)) := wp_upd hc

theorem wp_setRedP {n : Nat} {b : Bool} {c : Cell (RD K V)} {Q : Unit → Heap (RD K V) → Prop} (hc : h.mem n = some c) :
    wp W (setRedP (some n) b) Q h ↔ W n ∧ Q () (h.put n { c with d := c.d.col b }) := wp_upd hc

theorem wp_redP {n : Nat} {c : Cell (RD K V)} {Q : Bool → Heap (RD K V) → Prop} (hc : h.mem n = some c) :
    wp W (redP (some n)) Q h ↔ Q c.d.red h := by
  simp only [redP, wp_bind, wp_load hc, wp_pure]

theorem wp_isRedP {n : Nat} {c : Cell (RD K V)} {Q : Bool → Heap (RD K V) → Prop} (hc : h.mem n = some c) :
    wp W (isRedP (some n)) Q h ↔ Q c.d.red h := by
  simp only [isRedP, ifNotNil_some, wp_redP hc]

theorem wp_isRedP_tree {t : ATree (RD K V)} {Q : Bool → Heap (RD K V) → Prop} (ht : Rep h t) :
    wp W (isRedP (ptr t)) Q h ↔ Q (isRed (erase t)) h := by
  cases t with
  | nil => simp [isRedP, isRed]
  | node ad l r => exact wp_isRedP ht.1

theorem wp_andP_read {D : Type} {x : Bool} {k : Prog D Bool} {y : Bool} {h : Heap D} {W : Nat → Prop} {Q : Bool → Heap D → Prop}
    (hk : wp W k Q h ↔ Q y h) : wp W (andP x k) Q h ↔ Q (x && y) h := by
  cases x <;> simp [andP, hk]

theorem wp_fullCopy {n : Nat} {c : Cell (RD K V)} {Q : Ptr → Heap (RD K V) → Prop} (hc : h.mem n = some c) :
    wp W (fullCopy (some n)) Q h ↔ Q (some h.next) (h.push c) := by
  simp only [fullCopy, wp_bind, wp_load hc, wp_new, wp_pure]

theorem wp_colorCopy {n : Nat} {b : Bool} {c : Cell (RD K V)} {Q : Ptr → Heap (RD K V) → Prop} (hc : h.mem n = some c) :
    wp W (colorCopy (some n) b) Q h ↔ Q (some h.next) (h.push { c with d := c.d.col b }) := by
  simp only [colorCopy, wp_bind, wp_load hc, wp_new, wp_pure]

theorem cell2_red (d : RD K V) (b : Bool) (x y : Ptr) (c : Bool) :
    ({ cell2 d b x y with d := (cell2 d b x y).d.col c } : Cell (RD K V)) = cell2 (d.col c) b x y := by cases b <;> rfl

/-- `single` on cells: `a` is the upper node, `b` the one that comes up. -/
theorem wp_single {a b : Nat} {da db : RD K V} {dir : Bool} {x y z : Ptr} {Q : Ptr → Heap (RD K V) → Prop}
    (ha : h.mem a = some (cell2 da dir (some b) x)) (hb : h.mem b = some (cell2 db dir y z)) (hne : a ≠ b) (Wa : W a) (Wb : W b)
    (hQ : Q (some b) ((h.put a (cell2 (da.col true) dir z x)).put b (cell2 (db.col false) dir y (some a)))) :
    wp W (single (some a) dir) Q h := by
  have e1 : (h.put a (cell2 da dir z x)).mem b = some (cell2 db dir y z) := by rw [Heap.mem_put, if_neg hne.symm, hb]
  have e2 : ((h.put a (cell2 da dir z x)).put b (cell2 db dir y (some a))).mem a = some (cell2 da dir z x) := by
    rw [Heap.mem_put, if_neg hne, Heap.mem_put_self]
  simp only [single, wp_bind, wp_load ha, cell2_child, wp_load hb, cell2_child_not, wp_setChld ha, cell2_setChild, wp_setChld e1,
    cell2_setChild_not, wp_setRedP e2, cell2_red]
  refine ⟨Wa, Wb, Wa, ?_⟩
  have e3 : (((h.put a (cell2 da dir z x)).put b (cell2 db dir y (some a))).put a (cell2 (da.col true) dir z x)).mem b =
      some (cell2 db dir y (some a)) := by
    rw [Heap.mem_put, if_neg hne.symm, Heap.mem_put_self]
  rw [wp_setRedP e3]
  refine ⟨Wb, ?_⟩
  rw [cell2_red, Heap.put_comm _ hne.symm, Heap.put_put_same, Heap.put_put_same]
  exact hQ

theorem cell2_flip (d : RD K V) (b : Bool) (x y : Ptr) : cell2 d (!b) x y = cell2 d b y x := by cases b <;> rfl

/-- `double` on cells: `a` is the upper node, `b` its child, `c` the one that comes up. -/
theorem wp_double {a b c : Nat} {da db dc : RD K V} {dir : Bool} {x y u v : Ptr} {Q : Ptr → Heap (RD K V) → Prop}
    (ha : h.mem a = some (cell2 da dir (some b) x)) (hb : h.mem b = some (cell2 db dir y (some c))) (hc : h.mem c = some (cell2 dc dir u v))
    (hab : a ≠ b) (hac : a ≠ c) (hbc : b ≠ c) (Wa : W a) (Wb : W b) (Wc : W c)
    (hQ : Q (some c) (((h.put b (cell2 (db.col true) dir y u)).put a (cell2 (da.col true) dir v x)).put c
      (cell2 (dc.col false) dir (some b) (some a)))) :
    wp W (double (some a) dir) Q h := by
  simp only [double, wp_bind, wp_load ha, cell2_child]
  rw [← Bool.not_not dir, cell2_flip] at hb hc
  refine wp_single (dir := !dir) hb hc hbc Wb Wc ?_
  have e1 : ((h.put b (cell2 (db.col true) (!dir) u y)).put c (cell2 (dc.col false) (!dir) v (some b))).mem a = some (cell2 da dir (some b) x) := by
    rw [Heap.mem_put, if_neg hac, Heap.mem_put, if_neg hab, ha]
  simp only [wp_setChld e1, cell2_setChild]
  refine ⟨Wa, ?_⟩
  refine wp_single (dir := dir) (a := a) (b := c) (da := da) (x := x) (db := dc.col false) (y := some b) (z := v) ?_ ?_ hac Wa Wc ?_
  · rw [Heap.mem_put_self]
  · rw [Heap.mem_put, if_neg hac.symm, Heap.mem_put_self, cell2_flip]
  · rw [Heap.put_put_same, Heap.put_comm _ hac.symm, Heap.put_put_same]
    simp only [cell2_flip]
    exact hQ

end Verif.RBHeap
