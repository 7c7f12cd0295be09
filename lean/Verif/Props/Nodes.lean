import Verif.NumHeap.Node
import Verif.Props.NumtreeHeap
import Verif.Props.Goroutines

/-!
# Property theorems for nodes used as trees (C80)

`FindNode` and `Children` hand out nodes of a tree, and the fields of a node are exported.  A node is a root like any other:
a client may look up in it, derive trees from it, take nodes of it, and, with exclusive access, insert into it or assign to
the value of a node of it.  `NodeOp` is a call of that kind, `Leaves` (Spec/Subtree) what the caller means by a chain of them.
-/

namespace Verif.Props
open Verif Verif.Heap Verif.Heap.Prog Verif.Num Verif.NumHeap
variable {w : Nat} {V : Type} [LawfulKeySize w] [Inhabited V]

omit [LawfulKeySize w] [Inhabited V] in
theorem isMeet_unique {m : PMap V} {p p' : List Bool} (h : m.IsMeet p) (h' : m.IsMeet p') : p = p' :=
  List.IsPrefix.eq_of_length (h'.2 p h.1) (Nat.le_antisymm (h'.2 p h.1).length_le (h.2 p' h'.1).length_le)

omit [LawfulKeySize w] [Inhabited V] in
theorem isMeet_nonempty {m : PMap V} {p : List Bool} (h : m.IsMeet p) (he : ∀ q, m q = none) : False := by
  have := (h.2 (p ++ [true]) fun q v hq => by rw [he q] at hq; cases hq).length_le
  simp at this
  omega

omit [LawfulKeySize w] [Inhabited V] in
/-- C80: the specification determines the entries a chain of calls leaves. -/
theorem C80_entries_unique {l : List (NodeCall V)} {m m' : PMap V} (h : Leaves l m) (h' : Leaves l m') : m = m' := by
  induction h generalizing m' with
  | start => cases h'; rfl
  | insert p v _ ih => cases h' with | insert _ _ g => rw [ih g]
  | delete p _ ih => cases h' with | delete _ g => rw [ih g]
  | assign v _ e ih =>
    cases h' with
    | assign _ g _ => rw [ih g]
    | assign_none _ g e' => rw [ih g, e'] at e; cases e
  | assign_none v _ e ih =>
    cases h' with
    | assign _ g e' => rw [ih g, e'] at e; cases e
    | assign_none _ g _ => exact ih g
  | find _ e ih =>
    cases h' with
    | find g _ => rw [ih g]
    | find_none g e' => rw [ih g, e'] at e; cases e
  | find_none _ e ih =>
    cases h' with
    | find g e' => rw [ih g, e'] at e; cases e
    | find_none g _ => rfl
  | child b _ e ih =>
    cases h' with
    | child _ g e' =>
      have := ih g
      subst this
      rw [isMeet_unique e e']
    | child_empty _ g e' =>
      have := ih g
      subst this
      exact (isMeet_nonempty e e').elim
  | child_empty b _ e ih =>
    cases h' with
    | child _ g e' =>
      have := ih g
      subst this
      exact (isMeet_nonempty e' e).elim
    | child_empty _ g _ => rfl

/-- C80: whatever tree a chain of calls has made, also by taking nodes out of trees, its lookups, its listing and the flag of
Delete are those of the entries the caller expects. -/
theorem C80_entries (ops : List (NodeOp w V)) : ∃ m, Leaves (ops.map NodeOp.abs) m ∧
    (∀ (k : BitVec w) (bits : Int), ExactMatch (runN ops) k bits = m (sig k (clampSpec w bits))) ∧
    (∀ (k : BitVec w) (bits : Int), m.IsLongestMatch (sig k (clampSpec w bits)) (Match (runN ops) k bits)) ∧
    (∀ q v, m q = some v ↔ ∃ n ∈ Enumerate (runN ops), sig n.key n.bits = q ∧ n.value = v) ∧
    ((Enumerate (runN ops)).Pairwise fun a b =>
      netKey a.key a.bits < netKey b.key b.bits ∨ (netKey a.key a.bits = netKey b.key b.bits ∧ a.bits < b.bits)) ∧
    ∀ (k : BitVec w) (bits : Int), (Delete (runN ops) k bits).2 = true ↔ m.HasBelow (sig k (clampSpec w bits)) := by
  obtain ⟨h1, h2, _⟩ := runN_wf ops
  exact ⟨_, h2, exactMatch_eq_den h1, match_longest h1, h1.mem_enumerate_iff, h1.enumerate_sorted, fun k bits => (del_spec h1 k (clamp_le bits)).2.2.1⟩

/-- C80: the fields of the top node.  Its prefix is the longest that contains all entries; it is a leaf if there is an entry
for that prefix, and then it has that entry's value; if not, its value is nil and it has both children.  Its children hold the
entries that go on with a zero and those that go on with a one, and so are made by a chain of calls as well. -/
theorem C80_node (ops : List (NodeOp w V)) {n : ND w V} {l r : NTree w V} (h : runN ops = .node n l r) :
    ∃ m, Leaves (ops.map NodeOp.abs) m ∧ m.IsMeet (sig n.key n.bits) ∧ n.bits ≤ w ∧
      m (sig n.key n.bits) = (if n.leaf then some n.value else none) ∧
      (n.leaf = false → n.value = default ∧ l ≠ .nil ∧ r ≠ .nil) ∧
      Children (runN ops) = some (l, r) ∧ l = runN (.child false :: ops) ∧ r = runN (.child true :: ops) := by
  obtain ⟨h1, h2, h3⟩ := runN_wf ops
  rw [h] at h1 h2 h3
  refine ⟨_, h2, h1.isMeet, h1.1, h1.den_self, fun hl => ⟨(glue_node.1 h3).1 hl, h1.2.2.1 hl⟩, by rw [h]; rfl, ?_, ?_⟩ <;> simp [runN, h, childOf_node]

/-- C80: the node FindNode returns is the one of the prefix asked for, and it is returned exactly if there is an entry. -/
theorem C80_find (ops : List (NodeOp w V)) (k : BitVec w) (bits : Int) : ∃ m, Leaves (ops.map NodeOp.abs) m ∧
    match FindNode (runN ops) k bits with
    | .nil => m (sig k (clampSpec w bits)) = none
    | .node n _ _ => n.leaf = true ∧ sig n.key n.bits = sig k (clampSpec w bits) ∧ m (sig k (clampSpec w bits)) = some n.value := by
  obtain ⟨h1, h2, _⟩ := runN_wf ops
  refine ⟨_, h2, ?_⟩
  have hx := exactMatch_spec h1 k (clamp_le bits)
  unfold FindNode
  cases he : exactMatch (runN ops) k (clamp w bits) with
  | nil => rw [he] at hx; exact hx
  | node n x y =>
    rw [he] at hx
    exact ⟨hx.1, hx.2.1, by have := hx.2.2.1; rwa [hx.2.1] at this⟩

omit [LawfulKeySize w] [Inhabited V] in
/-- C80: Children of an empty tree panics. -/
theorem C80_children_nil : Children (.nil : NTree w V) = none ∧ ∀ h : Heap (ND w V), (ChildrenP none : Prog (ND w V) _).run h = .error .panic :=
  ⟨rfl, fun _ => rfl⟩

omit [Inhabited V] in
theorem observes_of_wf {f : Nat} (hf : w + 2 ≤ f) {h : Heap (ND w V)} {A : ATree (ND w V)} (hA : ATree.Rep h A) (wf : WF [] (ATree.erase A)) :
    Observes f h (ATree.ptr A) (den (ATree.erase A)) := by
  have hh : A.height < f := by
    have := wf.height_le (by simp)
    have e := erase_height A
    simp at this; omega
  refine ⟨fun k bits => ?_, fun k bits => ?_, _, answer_of_wp (EnumerateP_spec hh hA), wf.mem_enumerate_iff, wf.enumerate_sorted⟩
  · rw [answer_of_wp (ExactMatchP_spec hh hA k bits), exactMatch_eq_den wf]
  · exact ⟨_, answer_of_wp (MatchP_spec hh hA k bits), match_longest wf k bits⟩

/-- All observations through a root are those of the entries a chain of calls leaves. -/
def Shows (f : Nat) (h : Heap (ND w V)) (r : Ptr) (calls : List (NodeCall V)) : Prop := ∃ m, Leaves calls m ∧ Observes f h r m

theorem shows_of_rep {f : Nat} (hf : w + 2 ≤ f) {h : Heap (ND w V)} {A : ATree (ND w V)} (hA : ATree.Rep h A) {ops : List (NodeOp w V)}
    (hE : ATree.erase A = runN ops) : Shows f h (ATree.ptr A) (ops.map NodeOp.abs) := by
  obtain ⟨h1, h2, _⟩ := runN_wf ops
  rw [← hE] at h1 h2
  exact ⟨_, h2, observes_of_wf hf hA h1⟩

/-- C80 on memory: a client holds any number of trees and nodes taken from them, derives trees from any of them, and inserts
in place or assigns to the value of a node where it has exclusive access.  No call panics, and every root held shows exactly
the entries its own chain of calls leaves, whatever was done with the others. -/
theorem C80_history {f : Nat} (hf : w + 2 ≤ f) (ops : List (SOp (NodeOp w V)))
    (hl : (Book.init : Book (NodeOp w V)).LegalAll (nodeImpl f w V).inpOk ops) :
    ∃ s, Store.init.exec (nodeImpl f w V) ops = .ok s ∧ s.roots.length = (Book.init.exec ops).vs.length ∧
      ∀ (i : Nat) r v, s.roots[i]? = some r → (Book.init.exec ops).vs[i]? = some v → Shows f s.heap r (v.2.map NodeOp.abs) := by
  obtain ⟨s, e, _, h1, h2⟩ := history (nodeImpl_lawful (V := V) hf ops.length) ops (Nat.le_refl _) hl
  refine ⟨s, e, h1, fun i r v hr hv => ?_⟩
  obtain ⟨A, rfl, a1, a2, _⟩ := h2 i r v hr hv
  exact shows_of_rep hf a1 a2

/-- The right answers on a tree made by the calls `ops`. -/
def NodeRight : NumQ w → List (NodeOp w V) → Reply V (ND w V) → Prop
  | .exact k bits, ops, x => ∃ m, Leaves (ops.map NodeOp.abs) m ∧ x = .val (m (sig k (clampSpec w bits)))
  | .longest k bits, ops, x => ∃ m y, Leaves (ops.map NodeOp.abs) m ∧ x = .val y ∧ m.IsLongestMatch (sig k (clampSpec w bits)) y
  | .list, ops, x => ∃ m l, Leaves (ops.map NodeOp.abs) m ∧ x = .list l ∧ (∀ q v, m q = some v ↔ ∃ n ∈ l, sig n.key n.bits = q ∧ n.value = v) ∧
    l.Pairwise fun a b => netKey a.key a.bits < netKey b.key b.bits ∨ (netKey a.key a.bits = netKey b.key b.bits ∧ a.bits < b.bits)

theorem nodeRead_ok {f : Nat} (hf : w + 2 ≤ f) (q : NumQ w) (h : Heap (ND w V)) (r : Ptr) (l : List (NodeOp w V)) (F : Addr → Prop) (ho : (nodeImpl f w V).toO.Obj h r l F) :
    wp (fun _ => False) (numRead f q r) (fun x h' => h' = h ∧ NodeRight q l x) h := by
  obtain ⟨A, rfl, a1, a2, _, _⟩ := ho
  have a2 : ATree.erase A = runN l := a2
  obtain ⟨m, hm, ob⟩ := shows_of_rep hf a1 a2
  have hh : A.height < f := by
    have := runN_height (w := w) (V := V) l
    have e := erase_height A
    rw [a2] at e; omega
  cases q with
  | exact k bits =>
    simp only [numRead, wp_bind, wp_pure]
    exact wp_conseq (wp_of_answer (ExactMatchP_spec hh a1 k bits) (fun _ _ h => h.1) (ob.1 k bits) rfl) fun x h' hx => ⟨hx.1, m, hm, congrArg Reply.val hx.2.symm⟩
  | longest k bits =>
    simp only [numRead, wp_bind, wp_pure]
    obtain ⟨x, h1, h2⟩ := ob.2.1 k bits
    exact wp_conseq (wp_of_answer (MatchP_spec hh a1 k bits) (fun _ _ h => h.1) h1 h2) fun x h' hx => ⟨hx.1, m, x, hm, rfl, hx.2⟩
  | list =>
    simp only [numRead, wp_bind, wp_pure]
    obtain ⟨x, h1, h2⟩ := ob.2.2
    exact wp_conseq (wp_of_answer (EnumerateP_spec hh a1) (fun _ _ h => h.1) h1 h2) fun x h' hx => ⟨hx.1, m, x, hm, rfl, hx.2⟩

/-- C80 for goroutines: any number of goroutines take nodes out of shared trees, derive trees from them and read, and insert or
assign in place only into trees they started themselves; they do not notice each other. -/
theorem C80_goroutines {f : Nat} (hf : w + 2 ≤ f) (ops : List (SOp (NodeOp w V)))
    (hl : (Book.init : Book (NodeOp w V)).LegalAll2 (nodeImpl f w V).toO.cowOk (nodeImpl f w V).toO.inpOk ops)
    {T : Type} [DecidableEq T] (script : T → List (TOp (NodeOp w V) (NumQ w)))
    (hs : ∀ t, (Book.init.exec ops).LegalT (nodeImpl f w V).toO.cowOk (nodeImpl f w V).toO.inpOk (Book.init.exec ops).next (script t))
    (hN : ∃ N, ∀ t, (script t).length ≤ N) (sched : List T) :
    ∃ s, OStore.init.exec (nodeImpl f w V).toO ops = .ok s ∧ ∀ t,
      let prog := fun t => sessionP (nodeImpl f w V).toO (numRead f) (script t) s.roots
      Promise s (Book.init.exec ops) script prog NodeRight (fun h r l => Shows f h r (l.map NodeOp.abs))
        ((Fleet.start s.heap prog).exec sched) sched t := by
  obtain ⟨N, hN⟩ := hN
  refine obj_fleet (Impl.toO_lawful (nodeImpl_lawful (V := V) hf (ops.length + N))) ops hl (numRead f) NodeRight _ ?_ ?_ script (by omega)
    (fun t => by have := hN t; omega) hs sched
  · exact fun q h r l F _ ho => nodeRead_ok hf q h r l F ho
  · rintro h r l F _ ⟨A, rfl, a1, a2, _, _⟩
    exact shows_of_rep hf a1 a2

/-! ## Concrete cases -/

/-- 10/8 holds 1, 10.1/16 holds 2, 10.2/16 holds 3, 11/8 holds 4 (newest first; low bits of keys dirty). -/
def nodeSample : List (NodeOp 32 Nat) :=
  [.insert 0x0B0000FF#32 8 4, .insert 0x0A020000#32 16 3, .insert 0x0A010000#32 16 2, .insert 0x0A0000FF#32 8 1]

/-- The node of 10/8 has the two entries below it and not 11/8; its only child is a node without a value over both. -/
example : (Enumerate (runN (.find 0x0A000000#32 8 :: nodeSample))).map (fun n => (n.key, n.bits, n.value)) =
      [(0x0A0000FF#32, 8, 1), (0x0A010000#32, 16, 2), (0x0A020000#32, 16, 3)] ∧
    runN (.child true :: .find 0x0A000000#32 8 :: nodeSample) = .nil ∧
    (Children (runN (.child false :: .find 0x0A000000#32 8 :: nodeSample))).map (fun c => (Enumerate c.1, Enumerate c.2)) =
      some ([⟨0x0A010000#32, 16, true, 2⟩], [⟨0x0A020000#32, 16, true, 3⟩]) := by decide +kernel

/-- Lookups and modifications of such a node. -/
example : Match (runN (.find 0x0A000000#32 8 :: nodeSample)) 0x0B010101#32 32 = none ∧
    Match (runN nodeSample) 0x0B010101#32 32 = some 4 ∧
    Match (runN (.child false :: .find 0x0A000000#32 8 :: nodeSample)) 0x0A030000#32 16 = none ∧
    Match (runN (.insert 0x0C000000#32 8 5 :: .child false :: .find 0x0A000000#32 8 :: nodeSample)) 0x0C030000#32 16 = some 5 ∧
    ExactMatch (runN (.assign 0x0A020000#32 16 9 :: .child false :: .find 0x0A000000#32 8 :: nodeSample)) 0x0A020000#32 16 = some 9 ∧
    ExactMatch (runN (.assign 0x0A030000#32 16 9 :: .child false :: .find 0x0A000000#32 8 :: nodeSample)) 0x0A030000#32 16 = none := by decide +kernel

/-- The hypothesis of `C80_node` is met. -/
example : ∃ n l r, runN nodeSample = .node n l r ∧ n.leaf = false ∧ n.bits = 7 := ⟨_, _, _, rfl, by decide +kernel, by decide +kernel⟩

/-- 1 = 10/8 and 10.1/16; 2 = the node of 10/8 in it, 3 = 2 with 10.2/16, 4 = the child of 3.  Then a tree of its own: 5 gets
10/8 and 10.1/16 in place, and the value of 10.1/16 is assigned. -/
def nodeHistory : List (SOp (NodeOp 32 Nat)) :=
  [.fresh, .cow 0 (.insert 0x0A010000#32 16 2), .cow 1 (.find 0x0A010000#32 16), .cow 2 (.insert 0x0A020000#32 16 3), .cow 3 (.child true),
   .fresh, .inp 5 (.insert 0x0A000000#32 8 1), .inp 5 (.insert 0x0A010000#32 16 2), .inp 5 (.assign 0x0A010000#32 16 7)]

example : (match Store.init.exec (nodeImpl 34 32 Nat) nodeHistory with
    | .ok s => s.roots.map fun r => (answer (ExactMatchP 34 r 0x0A010000#32 16) s.heap, answer (ExactMatchP 34 r 0x0A020000#32 16) s.heap)
    | .error _ => []) = [(some none, some none), (some (some 2), some none), (some (some 2), some none), (some (some 2), some (some 3)),
      (some none, some (some 3)), (some (some 7), some none)] := by decide +kernel

theorem nodeHistory_legal : (Book.init : Book (NodeOp 32 Nat)).LegalAll (nodeImpl 34 32 Nat).inpOk nodeHistory := by
  refine ⟨trivial, trivial, trivial, trivial, trivial, trivial, ⟨trivial, ?_⟩, ⟨trivial, ?_⟩, ⟨trivial, ?_⟩, trivial⟩
  all_goals
    intro v hv j u hj hu
    simp [Book.init, Book.step] at hv hu
    subst hv
    rcases j with _ | _ | _ | _ | _ | _ | j <;> simp at hu <;> simp [← hu] at *

/-- Not covered, and not so: the value assigned through a node taken from a tree shows in the tree it was taken from. -/
example : (match Store.init.exec (nodeImpl 34 32 Nat) [.fresh, .cow 0 (.insert 0x0A000000#32 8 1), .cow 1 (.insert 0x0B000000#32 8 2),
      .cow 2 (.find 0x0A000000#32 8), .inp 3 (.assign 0x0A000000#32 8 9)] with
    | .ok s => s.roots.map fun r => answer (ExactMatchP 34 r 0x0A000000#32 8) s.heap
    | .error _ => []) = [some none, some (some 9), some (some 9), some (some 9)] := by decide +kernel

/-- One goroutine takes the node of 10/8 out of the shared tree and inserts below it, one deletes it from the tree. -/
def nodeScript : Fin 2 → List (TOp (NodeOp 32 Nat) (NumQ 32))
  | 0 => [.call (.cow 2 (.find 0x0A000000#32 8)), .call (.cow 3 (.insert 0x0A010000#32 16 7)), .read 4 (.longest 0x0A010203#32 32), .read 3 (.longest 0x0B010203#32 32),
      .read 2 (.longest 0x0B010203#32 32)]
  | 1 => [.call (.cow 2 (.delete 0x0A000000#32 8)), .call (.cow 2 (.child true)), .read 3 (.longest 0x0A010203#32 32), .read 4 (.longest 0x0A010203#32 32),
      .read 2 (.longest 0x0A010203#32 32)]

def nodeTwo : List (SOp (NodeOp 32 Nat)) := [.fresh, .cow 0 (.insert 0x0A000000#32 8 1), .cow 1 (.insert 0x0B000000#32 8 2)]

example : finals (nodeImpl 34 32 Nat).toO (numRead 34) nodeTwo 2 nodeScript (turns 2 100 (by decide)) =
    some [some [some (.val (some 7)), some (.val none), some (.val (some 2))], some [some (.val none), some (.val none), some (.val (some 1))]] := by decide +kernel

example : ∀ t, (Book.init.exec nodeTwo).LegalT (nodeImpl 34 32 Nat).toO.cowOk (nodeImpl 34 32 Nat).toO.inpOk 1 (nodeScript t) := by
  intro t
  match t with
  | 0 => exact ⟨⟨fun _ _ => trivial, trivial⟩, ⟨fun _ _ => trivial, trivial⟩, trivial⟩
  | 1 => exact ⟨⟨fun _ _ => trivial, trivial⟩, ⟨fun _ _ => trivial, trivial⟩, trivial⟩

end Verif.Props
