import Verif.NumHeap.Zero
import Verif.RBHeap.Zero
import Verif.Props.NumtreeHeap
import Verif.Props.StrtreeHeap

/-!
# Property theorems for zero values (C84)

`numtree.Node32{}` is not the empty tree (that is a nil pointer) but acts as an empty map, with one exception; `strtree.Tree{}` has no comparison function and takes
one key.  (The zero values of the other packages are what their constructors return; the histories of those packages start from them.)
-/

namespace Verif.Props
open Verif Verif.Heap Prog

section Numtree
open Verif.Num Verif.NumHeap
variable {w : Nat} {V : Type} [LawfulKeySize w] [Inhabited V]

/-- C84 (numtree): started from a zero node, queries answer as they do after the same calls on an empty tree. -/
theorem C84_numtree_map (ops : List (NumOp w V)) :
    (∀ (k : BitVec w) (bits : Int), ExactMatch (runZ ops) k bits = lastWrite (ops.map NumOp.abs) (sig k (clampSpec w bits))) ∧
    (∀ (k : BitVec w) (bits : Int), PMap.IsLongestMatch (lastWrite (ops.map NumOp.abs)) (sig k (clampSpec w bits)) (Match (runZ ops) k bits)) ∧
    (∀ q v, lastWrite (ops.map NumOp.abs) q = some v ↔ ∃ n ∈ Enumerate (runZ ops), sig n.key n.bits = q ∧ n.value = v) ∧
    (Enumerate (runZ ops)).Pairwise fun a b => netKey a.key a.bits < netKey b.key b.bits ∨ (netKey a.key a.bits = netKey b.key b.bits ∧ a.bits < b.bits) := by
  obtain ⟨h, hd⟩ := runZ_spec ops
  rw [← hd]
  rcases h with h | h
  · exact ⟨exactMatch_eq_den h, match_longest h, h.mem_enumerate_iff, h.enumerate_sorted⟩
  · refine ⟨h.exactMatch_eq, fun k bits => ?_, h.enumerate⟩
    unfold Match
    have := h.matchN_spec k (clamp_le bits)
    rw [clamp_eq] at this ⊢
    cases hx : matchN (runZ ops) k (clampSpec w bits) with
    | none => rw [hx] at this; exact .inr ⟨rfl, this⟩
    | some n =>
      rw [hx] at this
      exact .inl ⟨n.sig, n.value, rfl, this.1, this.2.1, this.2.2⟩

/-- C84 (numtree): what Delete reports.  It is as on other trees (C03), but with 0 bits on a tree that is not nil it is always true, also if nothing is stored. -/
theorem C84_numtree_flag (ops : List (NumOp w V)) (k : BitVec w) (bits : Int) :
    (Delete (runZ ops) k bits).2 = true ↔
      (∃ n ∈ Enumerate (runZ ops), sig k (clampSpec w bits) <+: sig n.key n.bits) ∨ (clampSpec w bits = 0 ∧ runZ ops ≠ .nil) := by
  obtain ⟨_, _, he, _⟩ := C84_numtree_map ops
  obtain ⟨h, hd⟩ := runZ_spec ops
  have hb : (den (runZ ops)).HasBelow (sig k (clampSpec w bits)) ↔ ∃ n ∈ Enumerate (runZ ops), sig k (clampSpec w bits) <+: sig n.key n.bits := by
    rw [hd]
    constructor
    · rintro ⟨q, v, hq, hv⟩
      obtain ⟨n, hn, rfl, _⟩ := (he q v).1 hv
      exact ⟨n, hn, hq⟩
    · rintro ⟨n, hn, hq⟩
      exact ⟨_, n.value, hq, (he _ _).2 ⟨n, hn, rfl, rfl⟩⟩
  rw [← hb]
  unfold Delete
  rcases h with h | h
  · rw [(del_spec h k (clamp_le bits)).2.2.1, clamp_eq]
    constructor
    · exact .inl
    · rintro (h' | ⟨h0, hn⟩)
      · exact h'
      · obtain ⟨q, v, hq⟩ := h.exists_den hn
        exact ⟨q, v, by rw [h0]; exact List.nil_prefix, hq⟩
  · rw [(h.del_spec k (clamp_le bits)).2.2.1, clamp_eq]
    have hn : runZ ops ≠ .nil := by obtain ⟨_, _, _, e, _⟩ := h; rw [e]; simp
    simp [hn]

/-- C84 (numtree): a deletion that is not reported gives the same tree back. -/
theorem C84_numtree_noop (ops : List (NumOp w V)) (k : BitVec w) (bits : Int) (h : (Delete (runZ ops) k bits).2 = false) : (Delete (runZ ops) k bits).1 = runZ ops := by
  rcases (runZ_spec ops).1 with h1 | h1
  · exact (del_spec h1 k (clamp_le bits)).2.2.2 h
  · exact (h1.del_spec k (clamp_le bits)).2.2.2 h

/-- C84 (numtree, on memory): in a history where trees are started by zero nodes and changed by Insert, Delete and InplaceInsert every held root shows its own chain of calls. -/
theorem C84_numtree_history {f : Nat} (hf : w + 2 ≤ f) (ops : List (SOp (NumOp w V)))
    (hl : (Book.init : Book (NumOp w V)).LegalAll2 (fun _ _ => True) (fun _ => (numImpl f w V).inpOk) ops) :
    ∃ s, OStore.init.exec (zeroImpl f w V) ops = .ok s ∧ s.roots.length = (Book.init.exec ops).vs.length ∧
      ∀ (i : Nat) r v, s.roots[i]? = some r → (Book.init.exec ops).vs[i]? = some v → Observes f s.heap r (lastWrite (v.2.map NumOp.abs)) := by
  obtain ⟨s, e, _, h1, h2⟩ := obj_history (zeroImpl_lawful (V := V) hf ops.length) ops (Nat.le_refl _) hl
  refine ⟨s, e, h1, fun i r v hr hv => ?_⟩
  obtain ⟨_, F, A, rfl, a1, a2, _, _⟩ := h2 i r v hr hv
  have hh : A.height < f := by
    have := runZ_height (w := w) (V := V) v.2
    have e := erase_height A
    rw [a2] at e; omega
  obtain ⟨m1, m2, m3, m4⟩ := C84_numtree_map v.2
  refine ⟨fun k bits => ?_, fun k bits => ⟨_, answer_of_wp (MatchP_spec hh a1 k bits), ?_⟩, _, answer_of_wp (EnumerateP_spec hh a1), ?_, ?_⟩
  · rw [answer_of_wp (ExactMatchP_spec hh a1 k bits), a2, m1]
  · rw [a2]; exact m2 k bits
  · rw [a2]; exact m3
  · rw [a2]; exact m4

example : Match (runZ sample32) 0x0A01FFFF#32 32 = some 7 ∧ Match (runZ sample32) 0x0A02FFFF#32 7 = none ∧
    (Enumerate (runZ sample32)).map (fun n => (n.bits, n.value)) = [(8, 3), (16, 7), (32, 4)] := by decide +kernel

/-- Nothing is stored, but Delete with 0 bits says it deleted something; with more bits, and on the empty tree, it does not. -/
example : Enumerate (runZ ([] : List (NumOp 32 Nat))) = [] ∧ (Delete (runZ ([] : List (NumOp 32 Nat))) 0#32 0).2 = true ∧
    (Delete (runZ ([] : List (NumOp 32 Nat))) 0#32 1).2 = false ∧ (Delete (Num.run ([] : List (NumOp 32 Nat))) 0#32 0).2 = false := by decide +kernel

/-- A zero node filled in place, then copied with another entry and with a deletion. -/
def zeroSample : List (SOp (NumOp 32 Nat)) :=
  [.fresh, .inp 0 (.insert 0x0A000000#32 8 1), .inp 0 (.insert 0x0A010000#32 16 2), .cow 0 (.insert 0#32 0 3), .cow 1 (.delete 0x0A010000#32 12)]

example : (Book.init : Book (NumOp 32 Nat)).LegalAll2 (fun _ _ => True) (fun _ => (numImpl 34 32 Nat).inpOk) zeroSample := by
  refine ⟨trivial, fun v hv => ⟨trivial, fun j u hj hu => ?_⟩, fun v hv => ⟨trivial, fun j u hj hu => ?_⟩, fun _ _ => trivial, fun _ _ => trivial, trivial⟩
  all_goals
    cases j with
    | zero => exact absurd rfl hj
    | succ j => simp [Book.step, Book.init] at hu

example : (match OStore.init.exec (zeroImpl 34 32 Nat) zeroSample with
    | .ok s => s.roots.map fun r => (answer (EnumerateP 34 r) s.heap).map fun l => l.map fun n => (n.bits, n.value)
    | .error _ => []) = [some [(8, 1), (16, 2)], some [(0, 3), (8, 1), (16, 2)], some [(0, 3), (8, 1)]] := by decide +kernel

end Numtree

section Strtree
open Verif.RB Verif.RBHeap
variable {V : Type} [Inhabited V]

/-- The tree whose root pointer is `r` lists exactly these pairs. -/
def ListsPairs (h : Heap (RD Bytes V)) (r : Ptr) (l : List (Bytes × V)) : Prop := ∀ f, 2 ≤ f → (enumerateP f r).runH h = (.ok l, h)

/-- The call panics, and afterwards the tree of root pointer `r` lists what it did before. -/
def PanicsKeeping {α : Type} (p : Prog (RD Bytes V) α) (h : Heap (RD Bytes V)) (r : Ptr) (l : List (Bytes × V)) : Prop :=
  (p.runH h).1 = .error .panic ∧ ListsPairs (p.runH h).2 r l

omit [Inhabited V] in
private theorem lists_one {h : Heap (RD Bytes V)} {a : Nat} {d : RD Bytes V} (hm : h.mem a = some ⟨d, none, none⟩) : ListsPairs h (some a) [(d.key, d.value)] := by
  intro f hf
  obtain ⟨f, rfl⟩ : ∃ g, f = g + 2 := ⟨f - 2, by omega⟩
  simp [enumerateP, runH_bind, runH_load hm, runH_pure]

/-- What a tree of one key does if its comparison function is nil. -/
def StuckAt (f : Nat) (h : Heap (RD Bytes V)) (r : Ptr) (k : Bytes) (v : V) : Prop :=
  ListsPairs h r [(k, v)] ∧
  ∀ k' v', PanicsKeeping (getX nilCompare f r k') h r [(k, v)] ∧ PanicsKeeping (insertX nilCompare f r k' v') h r [(k, v)] ∧
    PanicsKeeping (inplaceInsertX nilCompare f r k' v') h r [(k, v)] ∧ PanicsKeeping (delX nilCompare f r k') h r [(k, v)]

omit [Inhabited V] in
private theorem keeps {α : Type} {p : Prog (RD Bytes V) α} {h : Heap (RD Bytes V)} {a : Nat} {d : RD Bytes V} (ha : a < h.next) (hm : h.mem a = some ⟨d, none, none⟩)
    (hp : (p.runH h).1 = .error .panic ∧ ∀ x, x < h.next → (p.runH h).2.mem x = h.mem x) : PanicsKeeping p h (some a) [(d.key, d.value)] :=
  ⟨hp.1, lists_one (by rw [hp.2 a ha, hm])⟩

private theorem stuck {f : Nat} (hf : 1 ≤ f) {h : Heap (RD Bytes V)} {a : Nat} {d : RD Bytes V} (ha : a < h.next) (hm : h.mem a = some ⟨d, none, none⟩) :
    StuckAt f h (some a) d.key d.value := by
  obtain ⟨f, rfl⟩ : ∃ g, f = g + 1 := ⟨f - 1, by omega⟩
  refine ⟨lists_one hm, fun k' v' => ⟨?_, keeps ha hm (insert_nilCompare ha hm f k' v'), keeps ha hm (inplaceInsert_nilCompare ha hm f k' v'), keeps ha hm (del_nilCompare ha hm f k')⟩⟩
  rw [PanicsKeeping, get_nilCompare hm]
  exact ⟨rfl, lists_one hm⟩

/-- C84 (strtree): `strtree.Tree{}`, or a tree made with a nil comparison function, finds and deletes nothing while it is empty and takes one key, by Insert or by
InplaceInsert.  After that every Get, Insert, InplaceInsert and Delete panics; none of them changes what the tree lists. -/
theorem C84_strtree {f : Nat} (hf : 1 ≤ f) (h : Heap (RD Bytes V)) :
    (∀ k, (getX nilCompare f none k).runH h = (.ok none, h)) ∧
    (∀ k, ((delX nilCompare f none k).runH h).1 = .ok (none, false)) ∧
    (∀ k v, ∃ r h', (insertX nilCompare f none k v).runH h = (.ok r, h') ∧ StuckAt f h' r k v) ∧
    (∀ k v, ∃ r h', (inplaceInsertX nilCompare f none k v).runH h = (.ok r, h') ∧ StuckAt f h' r k v) := by
  obtain ⟨g, rfl⟩ : ∃ g, f = g + 1 := ⟨f - 1, by omega⟩
  refine ⟨fun k => by simp [getX, runH_pure], fun k => ?_, fun k v => ?_, fun k v => ?_⟩
  · simp [delX, delLoopX, delEndP, runH_bind, runH_new, load, Prog.runH, Heap.push, Cell.child, runH_pure]
  · refine ⟨_, _, rfl, ?_⟩
    exact stuck (d := ⟨k, v, false⟩) (by omega) (Nat.lt_succ_self _) (by simp [Heap.push])
  · refine ⟨_, _, rfl, ?_⟩
    exact stuck (d := ⟨k, v, false⟩) (by omega) (Nat.lt_succ_self _) (by simp [Heap.push])

/-- The second key is refused, the first stays; with a comparison function it is taken. -/
example : (match ((insertX nilCompare 5 none [1] 7).runH (Heap.empty : Heap (RD Bytes Nat))) with
      | (.ok r, h) => match (insertX nilCompare 5 r [2] 8).runH h with
        | (.error .panic, h') => answer (enumerateP 5 r) h'
        | _ => none
      | _ => none) = some [([1], 7)] := by decide +kernel

end Strtree

end Verif.Props
