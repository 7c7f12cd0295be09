import Verif.RBHeap.Panic

/-!
# strtree without a comparison function

`strtree.Tree{}` and `NewTreeWithCustomComparison(nil)` have a nil comparison function: every use of it panics.
-/

namespace Verif.Heap
open Prog
variable {D α β : Type}

theorem runH_bind (p : Prog D α) (f : α → Prog D β) (h : Heap D) : (p >>= f).runH h = match p.runH h with
    | (.ok x, h') => (f x).runH h'
    | (.error e, h') => (.error e, h') := by
  show (p.bind f).runH h = _
  induction p generalizing h with
  | ret x => rfl
  | stop e => rfl
  | read a k ih =>
    simp only [Prog.bind, Prog.runH]
    cases h.mem a with
    | none => rfl
    | some c => exact ih c h
  | write a c k ih => exact ih _
  | alloc c k ih => exact ih _ _

theorem runH_pure (x : α) (h : Heap D) : (pure x : Prog D α).runH h = (.ok x, h) := rfl
theorem runH_stop (e : Err) (h : Heap D) : (.stop e : Prog D α).runH h = (.error e, h) := rfl
theorem runH_new (c : Cell D) (h : Heap D) : (new c).runH h = (.ok h.next, h.push c) := rfl
theorem runH_load {a : Nat} {c : Cell D} {h : Heap D} (hc : h.mem a = some c) : (load (some a)).runH h = (.ok c, h) := by simp [load, Prog.runH, hc]
theorem runH_upd {a : Nat} {c : Cell D} {h : Heap D} (hc : h.mem a = some c) (f : Cell D → Cell D) : (upd (some a) f).runH h = (.ok (), h.put a (f c)) := by
  simp [upd, Prog.runH, hc]

end Verif.Heap

namespace Verif.RBHeap
open Verif.Heap Verif.Heap.Prog Verif.RB
variable {K V : Type} [Inhabited K] [Inhabited V]

/-- A nil comparison function. strtree/strtree.go:12-19 (`Compare`, `Tree`), 27-29. -/
def nilCompare : K → K → Option Int := fun _ _ => none

variable {h : Heap (RD K V)} {a : Nat} {d : RD K V}

omit [Inhabited K] [Inhabited V] in
theorem get_nilCompare (hm : h.mem a = some ⟨d, none, none⟩) (f : Nat) (k : K) : (getX nilCompare (f + 1) (some a) k).runH h = (.error .panic, h) := by
  simp [getX, runH_bind, runH_load hm, callCmp, nilCompare, runH_stop]

theorem insert_nilCompare (ha : a < h.next) (hm : h.mem a = some ⟨d, none, none⟩) (f : Nat) (k : K) (v : V) :
    ((insertX nilCompare (f + 1) (some a) k v).runH h).1 = .error .panic ∧ ∀ x, x < h.next → ((insertX nilCompare (f + 1) (some a) k v).runH h).2.mem x = h.mem x := by
  have ha' : a ≠ h.next := by omega
  have e : ∀ x, x < h.next → x ≠ h.next ∧ x ≠ h.next + 1 := fun x hx => by omega
  cases hr : d.red <;> refine ⟨?_, fun x hx => ?_⟩ <;>
    simp [insertX, insLoopX, insIterX, enterCow, copyUnless, fullCopy, flipCow, flipCond, setChld, fixP, reC, runH_bind, runH_new, load, upd, Prog.runH, Heap.push, Heap.put, Cell.child, Cell.setChild, callCmp, nilCompare, runH_pure, hm, ha', redP, andP, isRedP, ifNotNil, hr] <;> simp_all

theorem inplaceInsert_nilCompare (ha : a < h.next) (hm : h.mem a = some ⟨d, none, none⟩) (f : Nat) (k : K) (v : V) :
    ((inplaceInsertX nilCompare (f + 1) (some a) k v).runH h).1 = .error .panic ∧ ∀ x, x < h.next → ((inplaceInsertX nilCompare (f + 1) (some a) k v).runH h).2.mem x = h.mem x := by
  have ha' : a ≠ h.next := by omega
  have e : ∀ x, x < h.next → x ≠ h.next ∧ x ≠ h.next + 1 := fun x hx => by omega
  cases hr : d.red <;> refine ⟨?_, fun x hx => ?_⟩ <;>
    simp [inplaceInsertX, inpLoopX, inpIterX, enterInp, flipInp, flipCond, setChld, fixP, runH_bind, runH_new, load, upd, Prog.runH, Heap.push, Cell.child, Cell.setChild, callCmp, nilCompare, runH_pure, hm, ha', redP, andP, isRedP, ifNotNil, hr] <;> simp_all

theorem del_nilCompare (ha : a < h.next) (hm : h.mem a = some ⟨d, none, none⟩) (f : Nat) (k : K) :
    ((delX nilCompare (f + 1) (some a) k).runH h).1 = .error .panic ∧ ∀ x, x < h.next → ((delX nilCompare (f + 1) (some a) k).runH h).2.mem x = h.mem x := by
  have ha' : a ≠ h.next := by omega
  have e : ∀ x, x < h.next → x ≠ h.next ∧ x ≠ h.next + 1 := fun x hx => by omega
  refine ⟨?_, fun x hx => ?_⟩ <;>
    simp [delX, delLoopX, delIterX, fullCopy, setChld, runH_bind, runH_new, load, upd, Prog.runH, Heap.push, Heap.put, Cell.child, Cell.setChild, callCmp, nilCompare, runH_pure, hm, ha'] <;> simp_all

end Verif.RBHeap
