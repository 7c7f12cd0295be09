import Verif.NumHeap.History
import Verif.Heap.Client
import Verif.Props.Numtree

/-!
# Property theorems for numtree on memory (C05, C06, numtree part of C50)

A client history is a list of steps on the list of roots the client holds (`SOp`): start an empty tree, derive a root from
any held root by `Insert`/`Delete`, `InplaceInsert` into a held root, forget a root.  `Book.init.exec ops` is the client's own
record: for every held root the starting tree it comes from and the calls that made it (newest first).
-/

namespace Verif.Props
open Verif Verif.Heap Verif.Num Verif.NumHeap
variable {w : Nat} {V : Type} [LawfulKeySize w] [Inhabited V]

/-- All observations through a root are those of the prefix map `m`. -/
def Observes (f : Nat) (h : Heap (ND w V)) (r : Ptr) (m : PMap V) : Prop :=
  (∀ (k : BitVec w) (bits : Int), answer (ExactMatchP f r k bits) h = some (m (sig k (clampSpec w bits)))) ∧
  (∀ (k : BitVec w) (bits : Int), ∃ x, answer (MatchP f r k bits) h = some x ∧ m.IsLongestMatch (sig k (clampSpec w bits)) x) ∧
  ∃ l, answer (EnumerateP f r) h = some l ∧ (∀ q v, m q = some v ↔ ∃ n ∈ l, sig n.key n.bits = q ∧ n.value = v) ∧
    l.Pairwise fun a b => netKey a.key a.bits < netKey b.key b.bits ∨ (netKey a.key a.bits = netKey b.key b.bits ∧ a.bits < b.bits)

theorem observes_of_rep {f : Nat} (hf : w + 2 ≤ f) {h : Heap (ND w V)} {A : ATree (ND w V)} (hA : ATree.Rep h A) {ops : List (NumOp w V)}
    (hE : ATree.erase A = Num.run ops) : Observes f h (ATree.ptr A) (lastWrite (ops.map NumOp.abs)) := by
  have hh : A.height < f := by
    have := run_height (w := w) (V := V) ops
    have e := erase_height A
    rw [hE] at e; omega
  have wf := run_wf ops
  refine ⟨fun k bits => ?_, fun k bits => ?_, _, answer_of_wp (EnumerateP_spec hh hA), ?_, ?_⟩
  · rw [answer_of_wp (ExactMatchP_spec hh hA k bits), hE, exactMatch_eq_den wf.1, wf.2.1]
  · refine ⟨_, answer_of_wp (MatchP_spec hh hA k bits), ?_⟩
    rw [hE, ← wf.2.1]; exact match_longest wf.1 k bits
  · intro q v
    rw [hE, ← wf.2.1]; exact wf.1.mem_enumerate_iff q v
  · rw [hE]; exact wf.1.enumerate_sorted

/-- C05, C06: in every legal history no call panics or runs on, and every held root shows exactly the entries its own chain
of calls left, whatever was derived from it or done to other trees. -/
theorem C05_history {f : Nat} (hf : w + 2 ≤ f) (ops : List (SOp (NumOp w V)))
    (hl : (Book.init : Book (NumOp w V)).LegalAll (numImpl f w V).inpOk ops) :
    ∃ s, Store.init.exec (numImpl f w V) ops = .ok s ∧ s.roots.length = (Book.init.exec ops).vs.length ∧
      ∀ (i : Nat) r v, s.roots[i]? = some r → (Book.init.exec ops).vs[i]? = some v → Observes f s.heap r (lastWrite (v.2.map NumOp.abs)) := by
  obtain ⟨s, e, _, h1, h2⟩ := history (numImpl_lawful (V := V) hf ops.length) ops (Nat.le_refl _) hl
  refine ⟨s, e, h1, fun i r v hr hv => ?_⟩
  obtain ⟨A, rfl, a1, a2, _⟩ := h2 i r v hr hv
  exact observes_of_rep hf a1 a2

/-- C05: whatever is derived afterwards by Insert and Delete, from this root or others, a root obtained earlier answers every
query exactly as it did when it was obtained. -/
theorem C05_persistence {f : Nat} (hf : w + 2 ≤ f) (pre post : List (SOp (NumOp w V))) (hc : CowOnly post)
    (hl : (Book.init : Book (NumOp w V)).LegalAll (numImpl f w V).inpOk pre) :
    ∃ s s', Store.init.exec (numImpl f w V) pre = .ok s ∧ s.exec (numImpl f w V) post = .ok s' ∧
      ∀ (i : Nat) r, s.roots[i]? = some r → s'.roots[i]? = some r ∧
        (∀ (k : BitVec w) (bits : Int), answer (ExactMatchP f r k bits) s'.heap = answer (ExactMatchP f r k bits) s.heap ∧
          answer (MatchP f r k bits) s'.heap = answer (MatchP f r k bits) s.heap ∧
          answer (ExactMatchP f r k bits) s.heap ≠ none ∧ answer (MatchP f r k bits) s.heap ≠ none) ∧
        answer (EnumerateP f r) s'.heap = answer (EnumerateP f r) s.heap ∧ answer (EnumerateP f r) s.heap ≠ none := by
  obtain ⟨s, s', e1, e2, h⟩ := client_persist (numImpl_lawful (V := V) hf _) pre post (Nat.le_refl _) hc hl
  refine ⟨s, s', e1, e2, fun i r hr => ?_⟩
  obtain ⟨h1, l, A, A', rA, rA', c1, d1, c2, d2, _⟩ := h i r hr
  have c2 : ATree.erase A = Num.run l := c2
  have d2 : ATree.erase A' = Num.run l := d2
  have hh := run_height (w := w) (V := V) l
  have hh1 : A.height < f := by
    have e := erase_height A
    rw [c2] at e; omega
  have hh2 : A'.height < f := by
    have e := erase_height A'
    rw [d2] at e; omega
  refine ⟨h1, fun k bits => ?_, ?_⟩
  · have x1 := answer_of_wp (ExactMatchP_spec hh1 c1 k bits)
    have x2 := answer_of_wp (ExactMatchP_spec hh2 d1 k bits)
    have y1 := answer_of_wp (MatchP_spec hh1 c1 k bits)
    have y2 := answer_of_wp (MatchP_spec hh2 d1 k bits)
    rw [← rA, c2] at x1 y1
    rw [← rA', d2] at x2 y2
    rw [x1, x2, y1, y2]; simp
  · have x1 := answer_of_wp (EnumerateP_spec hh1 c1)
    have x2 := answer_of_wp (EnumerateP_spec hh2 d1)
    rw [← rA, c2] at x1
    rw [← rA', d2] at x2
    rw [x1, x2]; simp

/-- C06: after any legal history, an InplaceInsert into an exclusively held tree does not panic, the new root shows exactly
what the root returned by Insert would show, every other held root shows what it showed before, and no memory cell outside
the nodes of that tree and new nodes is written. -/
theorem C06_inplace {f : Nat} (hf : w + 2 ≤ f) (ops : List (SOp (NumOp w V)))
    (hl : (Book.init : Book (NumOp w V)).LegalAll (numImpl f w V).inpOk ops) (i : Nat) (k : BitVec w) (bits : Int) (x : V)
    (hi : (Book.init.exec ops).Legal (numImpl f w V).inpOk (.inp i (.insert k bits x))) :
    ∃ s, Store.init.exec (numImpl f w V) ops = .ok s ∧ ∀ r v, s.roots[i]? = some r → (Book.init.exec ops).vs[i]? = some v →
      (∃ r' h', (InplaceInsertP f r k bits x).run s.heap = .ok (r', h') ∧
        Observes f h' r' ((lastWrite (v.2.map NumOp.abs)).insert (sig k (clampSpec w bits)) x) ∧
        (∀ (j : Nat) q u, j ≠ i → s.roots[j]? = some q → (Book.init.exec ops).vs[j]? = some u → Observes f h' q (lastWrite (u.2.map NumOp.abs))) ∧
        ∀ a, a < s.heap.next → ¬ Reach s.heap r a → h'.mem a = s.heap.mem a) ∧
      ∃ r' h', (InsertP f r k bits x).run s.heap = .ok (r', h') ∧
        Observes f h' r' ((lastWrite (v.2.map NumOp.abs)).insert (sig k (clampSpec w bits)) x) ∧
        ∀ a, a < s.heap.next → h'.mem a = s.heap.mem a := by
  obtain ⟨s, e, h⟩ := client_inplace (numImpl_lawful (V := V) hf _) ops (Nat.lt_succ_self _) hl i (.insert k bits x) hi
  refine ⟨s, e, fun r v hr hv => ?_⟩
  obtain ⟨_, ⟨r', h', A', r1, rfl, r2, r3, r4, r5⟩, ⟨q', k', B', q1, rfl, q2, q3, q4⟩⟩ := h r v hr hv
  refine ⟨⟨_, h', r1, observes_of_rep hf r2 r3, fun j q u hj hq hu => ?_, r5⟩, _, k', q1, observes_of_rep hf q2 q3, q4⟩
  obtain ⟨B, rfl, b1, b2, _⟩ := r4 j q u hj hq hu
  exact observes_of_rep hf b1 b2

/-- Reading while a copy-on-write call runs, for any read-only program that answers `P`. -/
theorem duo_of_history {f : Nat} (hf : w + 2 ≤ f) (ops : List (SOp (NumOp w V)))
    (hl : (Book.init : Book (NumOp w V)).LegalAll (numImpl f w V).inpOk ops) (o : NumOp w V) (sched : List Bool) {α : Type}
    (R : Ptr → Prog (ND w V) α) (ro : ∀ r, (R r).ReadOnly) (P : List (NumOp w V) → α → Prop)
    (hR : ∀ (A : ATree (ND w V)) (h : Heap (ND w V)) (l : List (NumOp w V)), A.height < f → ATree.Rep h A → ATree.erase A = Num.run l →
      Prog.wp (fun _ => False) (R (ATree.ptr A)) (fun x _ => P l x) h) :
    ∃ s, Store.init.exec (numImpl f w V) ops = .ok s ∧ ∀ (i j : Nat) r v q, s.roots[i]? = some r → (Book.init.exec ops).vs[i]? = some v → s.roots[j]? = some q →
      let W := (numImpl f w V).cow o q
      let e := (Duo.mk (R r) W s.heap).exec sched
      (∀ x, e.reader ≠ .stop x) ∧ (∀ x, e.writer ≠ .stop x) ∧ ((R r).left s.heap ≤ sched.count true → ∃ x, e.reader = .ret x) ∧
      (∀ x, e.reader = .ret x → P v.2 x) ∧ ∀ y, e.writer = .ret y → W.run s.heap = .ok (y, e.heap) := by
  refine client_duo (numImpl_lawful (V := V) hf _) ops (Nat.lt_succ_self _) hl o sched R ro P fun A h l _ hA hE => ?_
  have hE : ATree.erase A = Num.run l := hE
  refine hR A h l ?_ hA hE
  have := run_height (w := w) (V := V) l
  have e := erase_height A
  rw [hE] at e
  omega

/-- C50 (numtree): after any legal history, for every schedule of the memory accesses of a Match on a held root with those of
an Insert or Delete deriving a new tree from a held root, the reader never fails, ends once it has had enough turns, and
answers as the old tree does; the writer's result is the one of a run alone. -/
theorem C50_numtree_match {f : Nat} (hf : w + 2 ≤ f) (ops : List (SOp (NumOp w V)))
    (hl : (Book.init : Book (NumOp w V)).LegalAll (numImpl f w V).inpOk ops) (o : NumOp w V) (k : BitVec w) (bits : Int) (sched : List Bool) :
    ∃ s, Store.init.exec (numImpl f w V) ops = .ok s ∧ ∀ (i j : Nat) r v q, s.roots[i]? = some r → (Book.init.exec ops).vs[i]? = some v → s.roots[j]? = some q →
      let W := (numImpl f w V).cow o q
      let e := (Duo.mk (MatchP f r k bits) W s.heap).exec sched
      (∀ x, e.reader ≠ .stop x) ∧ (∀ x, e.writer ≠ .stop x) ∧ ((MatchP f r k bits).left s.heap ≤ sched.count true → ∃ x, e.reader = .ret x) ∧
      (∀ x, e.reader = .ret x → PMap.IsLongestMatch (lastWrite (v.2.map NumOp.abs)) (sig k (clampSpec w bits)) x) ∧
      ∀ y, e.writer = .ret y → W.run s.heap = .ok (y, e.heap) :=
  duo_of_history hf ops hl o sched (fun r => MatchP f r k bits) (fun r => MatchP_readOnly f r k bits)
    (fun l x => PMap.IsLongestMatch (lastWrite (l.map NumOp.abs)) (sig k (clampSpec w bits)) x) fun A h l hh hA hE => by
      refine Prog.wp_conseq (MatchP_spec hh hA k bits) ?_
      rintro x _ ⟨_, rfl⟩
      rw [hE, ← (run_wf l).2.1]
      exact match_longest (run_wf l).1 k bits

/-- C50 (numtree), the same for ExactMatch. -/
theorem C50_numtree_exact {f : Nat} (hf : w + 2 ≤ f) (ops : List (SOp (NumOp w V)))
    (hl : (Book.init : Book (NumOp w V)).LegalAll (numImpl f w V).inpOk ops) (o : NumOp w V) (k : BitVec w) (bits : Int) (sched : List Bool) :
    ∃ s, Store.init.exec (numImpl f w V) ops = .ok s ∧ ∀ (i j : Nat) r v q, s.roots[i]? = some r → (Book.init.exec ops).vs[i]? = some v → s.roots[j]? = some q →
      let W := (numImpl f w V).cow o q
      let e := (Duo.mk (ExactMatchP f r k bits) W s.heap).exec sched
      (∀ x, e.reader ≠ .stop x) ∧ (∀ x, e.writer ≠ .stop x) ∧ ((ExactMatchP f r k bits).left s.heap ≤ sched.count true → ∃ x, e.reader = .ret x) ∧
      (∀ x, e.reader = .ret x → x = lastWrite (v.2.map NumOp.abs) (sig k (clampSpec w bits))) ∧
      ∀ y, e.writer = .ret y → W.run s.heap = .ok (y, e.heap) :=
  duo_of_history hf ops hl o sched (fun r => ExactMatchP f r k bits) (fun r => ExactMatchP_readOnly f r k bits)
    (fun l x => x = lastWrite (l.map NumOp.abs) (sig k (clampSpec w bits))) fun A h l hh hA hE => by
      refine Prog.wp_conseq (ExactMatchP_spec hh hA k bits) ?_
      rintro x _ ⟨_, rfl⟩
      rw [hE, exactMatch_eq_den (run_wf l).1, (run_wf l).2.1]

/-- C50 (numtree), the same for the walk of Enumerate. -/
theorem C50_numtree_enumerate {f : Nat} (hf : w + 2 ≤ f) (ops : List (SOp (NumOp w V)))
    (hl : (Book.init : Book (NumOp w V)).LegalAll (numImpl f w V).inpOk ops) (o : NumOp w V) (sched : List Bool) :
    ∃ s, Store.init.exec (numImpl f w V) ops = .ok s ∧ ∀ (i j : Nat) r v q, s.roots[i]? = some r → (Book.init.exec ops).vs[i]? = some v → s.roots[j]? = some q →
      let W := (numImpl f w V).cow o q
      let e := (Duo.mk (EnumerateP f r) W s.heap).exec sched
      (∀ x, e.reader ≠ .stop x) ∧ (∀ x, e.writer ≠ .stop x) ∧ ((EnumerateP f r).left s.heap ≤ sched.count true → ∃ x, e.reader = .ret x) ∧
      (∀ l, e.reader = .ret l → ∀ p y, lastWrite (v.2.map NumOp.abs) p = some y ↔ ∃ n ∈ l, sig n.key n.bits = p ∧ n.value = y) ∧
      ∀ y, e.writer = .ret y → W.run s.heap = .ok (y, e.heap) :=
  duo_of_history hf ops hl o sched (fun r => EnumerateP f r) (fun r => EnumerateP_readOnly f r)
    (fun m l => ∀ p y, lastWrite (m.map NumOp.abs) p = some y ↔ ∃ n ∈ l, sig n.key n.bits = p ∧ n.value = y) fun A h l hh hA hE => by
      refine Prog.wp_conseq (EnumerateP_spec hh hA) ?_
      rintro x _ ⟨_, rfl⟩ p y
      rw [hE, ← (run_wf l).2.1]
      exact (run_wf l).1.mem_enumerate_iff p y

/-- C08 in memory, with InplaceInsert calls among the history: the nodes reachable from a held root form a tree (no node is
met twice) that is economical, has at most width+1 nodes on a path and fewer than twice as many nodes as entries. -/
theorem C08_memory {f : Nat} (hf : w + 2 ≤ f) (ops : List (SOp (NumOp w V)))
    (hl : (Book.init : Book (NumOp w V)).LegalAll (numImpl f w V).inpOk ops) :
    ∃ s, Store.init.exec (numImpl f w V) ops = .ok s ∧ ∀ (i : Nat) r, s.roots[i]? = some r →
      ∃ A : ATree (ND w V), r = ATree.ptr A ∧ ATree.Rep s.heap A ∧ (∀ a, Reach s.heap r a ↔ 1 ≤ ATree.cnt a A) ∧ (∀ a, ATree.cnt a A ≤ 1) ∧
        Economical (ATree.erase A) ∧ A.height ≤ w + 1 ∧ (r ≠ none → (ATree.erase A).size < 2 * (Enumerate (ATree.erase A)).length) := by
  obtain ⟨s, e, _, h1, h2⟩ := history (numImpl_lawful (V := V) hf ops.length) ops (Nat.le_refl _) hl
  refine ⟨s, e, fun i r hr => ?_⟩
  have hi : i < (Book.init.exec ops).vs.length := by
    rw [← h1]; exact (List.getElem?_eq_some_iff.mp hr).1
  obtain ⟨A, rfl, a1, a2, a3⟩ := h2 i r _ hr (List.getElem?_eq_getElem hi)
  have a2' : ATree.erase A = Num.run ((Book.init.exec ops).vs[i]).2 := a2
  refine ⟨A, rfl, a1, fun a => reach_iff a1 a, a3, ?_, ?_, fun hn => ?_⟩
  · rw [a2']; exact C08_economical _
  · have := C08_height ((Book.init.exec ops).vs[i]).2
    rw [← a2'] at this
    have e := erase_height A
    omega
  · rw [a2']
    refine C08_size _ fun h0 => hn ?_
    rw [h0] at a2'
    cases A with
    | nil => rfl
    | node d l r => simp [ATree.erase] at a2'

/-- C09 in memory, with InplaceInsert calls among the history: two held roots answering ExactMatch alike have the same shape. -/
theorem C09_memory {f : Nat} (hf : w + 2 ≤ f) (ops : List (SOp (NumOp w V)))
    (hl : (Book.init : Book (NumOp w V)).LegalAll (numImpl f w V).inpOk ops) :
    ∃ s, Store.init.exec (numImpl f w V) ops = .ok s ∧ ∀ (i j : Nat) r q, s.roots[i]? = some r → s.roots[j]? = some q →
      (∀ (k : BitVec w) (bits : Int), answer (ExactMatchP f r k bits) s.heap = answer (ExactMatchP f q k bits) s.heap) →
      ∃ A B : ATree (ND w V), r = ATree.ptr A ∧ ATree.Rep s.heap A ∧ q = ATree.ptr B ∧ ATree.Rep s.heap B ∧
        canon (ATree.erase A) = canon (ATree.erase B) := by
  obtain ⟨s, e, _, h1, h2⟩ := history (numImpl_lawful (V := V) hf ops.length) ops (Nat.le_refl _) hl
  refine ⟨s, e, fun i j r q hr hq hs => ?_⟩
  have hi : i < (Book.init.exec ops).vs.length := by
    rw [← h1]; exact (List.getElem?_eq_some_iff.mp hr).1
  have hj : j < (Book.init.exec ops).vs.length := by
    rw [← h1]; exact (List.getElem?_eq_some_iff.mp hq).1
  obtain ⟨A, rfl, a1, a2, _⟩ := h2 i r _ hr (List.getElem?_eq_getElem hi)
  obtain ⟨B, rfl, b1, b2, _⟩ := h2 j q _ hq (List.getElem?_eq_getElem hj)
  have a2' : ATree.erase A = Num.run ((Book.init.exec ops).vs[i]).2 := a2
  have b2' : ATree.erase B = Num.run ((Book.init.exec ops).vs[j]).2 := b2
  refine ⟨A, B, rfl, a1, rfl, b1, ?_⟩
  rw [a2', b2']
  refine C09_canonical _ _ fun k bits => ?_
  have x := (observes_of_rep hf a1 a2').1 k bits
  have y := (observes_of_rep hf b1 b2').1 k bits
  rw [hs, y] at x
  have x := Option.some.inj x
  rw [C01_map, C01_map]
  exact x.symm

/-! ## Concrete cases -/

/-- A history with sharing: root 0 is empty, 1 = 0 + 10/8, 2 = 1 + 10.1/16, 3 = 1 + 10.2/16 (derived from the same root),
4 = 2 without 10/8, then a separate tree 5 with two in-place calls. -/
def heapSample : List (SOp (NumOp 32 Nat)) :=
  [.fresh, .cow 0 (.insert 0x0A000000#32 8 1), .cow 1 (.insert 0x0A010000#32 16 2), .cow 1 (.insert 0x0A020000#32 16 3),
   .cow 2 (.delete 0x0A000000#32 9), .fresh, .inp 5 (.insert 0x0A010000#32 16 7), .inp 5 (.insert 0x0A020000#32 16 8)]

/-- Answers of ExactMatch for 10.1/16 and 10.2/16 on every root of the sample. -/
def heapAnswers : Option (List (Option (Option Nat) × Option (Option Nat))) :=
  match Store.init.exec (numImpl 34 32 Nat) heapSample with
  | .ok s => some (s.roots.map fun r => (answer (ExactMatchP 34 r 0x0A010000#32 16) s.heap, answer (ExactMatchP 34 r 0x0A020000#32 16) s.heap))
  | .error _ => none

example : heapAnswers = some [(some none, some none), (some none, some none), (some (some 2), some none), (some none, some (some 3)),
    (some none, some none), (some (some 7), some (some 8))] := by decide +kernel

/-- The sample meets the hypotheses: the in-place calls are on a tree nobody else shares. -/
theorem heapSample_legal : (Book.init : Book (NumOp 32 Nat)).LegalAll (numImpl 34 32 Nat).inpOk heapSample := by
  refine ⟨trivial, trivial, trivial, trivial, trivial, trivial, ⟨trivial, ?_⟩, ⟨trivial, ?_⟩, trivial⟩
  all_goals
    intro v hv j u hj hu
    simp [Book.init, Book.step] at hv hu
    subst hv
    rcases j with _ | _ | _ | _ | _ | _ | j <;> simp at hu <;> simp [← hu] at *

/-- In-place calls on a tree that is shared are not covered, and do change the other root: root 1 is derived from root 0 and
shares its node, and the in-place call on root 0 shows through root 1. -/
example : (match Store.init.exec (numImpl 34 32 Nat) [.fresh, .cow 0 (.insert 0x0A000000#32 8 1), .cow 1 (.insert 0x0B000000#32 8 2),
      .inp 1 (.insert 0x0A000000#32 8 9)] with
    | .ok s => s.roots.map fun r => answer (ExactMatchP 34 r 0x0A000000#32 8) s.heap
    | .error _ => []) = [some none, some (some 9), some (some 9)] := by decide +kernel

end Verif.Props
