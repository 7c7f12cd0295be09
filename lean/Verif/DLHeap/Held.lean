import Verif.DLHeap.History
import Verif.Heap.Held

/-! # What a dltree keeps alive -/

namespace Verif.RB

theorem enumerate_length {K V : Type} (t : BTree (RD K V)) : (enumerate t).length = t.size := by
  induction t with
  | nil => rfl
  | node d l r ihl ihr => simp [enumerate, BTree.size, ihl, ihr]; omega

theorem mem_enumerate_of_toPre {K V : Type} {t : BTree (RD K V)} {d : RD K V} (h : d ∈ t.toPre) : (d.key, d.value) ∈ enumerate t := by
  induction t with
  | nil => simp [BTree.toPre] at h
  | node e l r ihl ihr =>
    simp only [BTree.toPre, List.mem_cons, List.mem_append] at h
    simp only [enumerate, List.mem_append, List.mem_cons]
    rcases h with rfl | h | h
    · simp
    · simp [ihl h]
    · simp [ihr h]

end Verif.RB

namespace Verif.DLHeap
open Verif Verif.Heap Verif.Heap.ATree Verif.RB Verif.RBHeap Verif.DL

variable {V E : Type} {M : DLMem V E}

/-- What a label tree keeps alive: its own cells, and what its values keep alive. -/
theorem held_label {out : E → List Ptr} (hT : out (M.kT.inj ()) = []) {m : Nat} {h : Heap E} {t : Ptr} {A : ATree (RD Bytes V)} (hL : LRep M m h t A)
    {x : Addr} (hx : Held h out t x) :
    (t = some x ∧ ∀ c, h.mem x = some c → c.d = M.kT.inj ()) ∨ (x ∈ addrs A ∧ ∃ d ∈ (erase A).toPre, ∀ c, h.mem x = some c → c.d = M.kR.inj d) ∨
      ∃ d ∈ (erase A).toPre, ∃ q ∈ out (M.kR.inj d), Held h out q x := by
  cases t with
  | none => exact (held_none hx).elim
  | some b =>
    have hc := hL.cell.1
    rcases held_some hc hx with rfl | ⟨i, hi⟩ | ⟨q, hq, _⟩
    · refine .inl ⟨rfl, fun c e => ?_⟩
      rw [hc] at e; cases e; rfl
    · cases i
      · exact .inr (held_tree hL.rep hi)
      · exact (held_none hi).elim
    · simp only at hq; rw [hT] at hq; cases hq

/-- The label and value inside a payload. -/
def stored : LD V → Option (Bytes × V)
  | .rb d => some (d.key, d.value)
  | .tree => none

theorem keeps_of_rep {m : Nat} {h : Heap (LD V)} {t : Ptr} {A : ATree (RD Bytes V)} (hL : LRep lm m h t A) :
    Keeps h (fun _ => []) t (1 + (RawEnumerate (treeOf t A)).length) fun d => ∀ kv, stored d = some kv → kv ∈ RawEnumerate (treeOf t A) := by
  have he : RawEnumerate (treeOf t A) = RB.enumerate (erase A) := by unfold RawEnumerate; rw [hL.rootOf]
  rw [he]
  refine ⟨t.toList ++ addrs A, ?_, fun x hx => ?_⟩
  · rw [List.length_append, addrs_length, RB.enumerate_length]
    cases t <;> simp
  · rcases held_label (M := lm) rfl hL hx with ⟨rfl, h1⟩ | ⟨h1, d, h2, h3⟩ | ⟨d, _, q, hq, _⟩
    · refine ⟨by simp, fun c hc kv hk => ?_⟩
      rw [h1 c hc] at hk; cases hk
    · refine ⟨by simp [h1], fun c hc kv hk => ?_⟩
      rw [h3 c hc] at hk; cases hk
      exact RB.mem_enumerate_of_toPre h2
    · cases hq

end Verif.DLHeap
