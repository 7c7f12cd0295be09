import Verif.RBHeap.History
import Verif.Props.Strtree

/-!
# Property theorems for strtree on memory (C13, C14, in-place parts of C15, C17, C18, strtree part of C50)

A client history is a list of steps on the list of trees the client holds (`SOp`): start an empty tree, derive a tree from any
held tree by `Insert`/`Delete`, `InplaceInsert` into a held tree, forget a tree.  A held tree is its `root` field.
`Book.init.exec ops` is the client's own record: for every held tree the starting tree it comes from and the calls that made
it (newest first).  The comparison is the same for all trees of a history.  The bound `f` on the number of loop iterations
has to be large enough for the length of the history; every larger bound gives the same results.
-/

namespace Verif.Props
open Verif Verif.Heap Verif.RB Verif.RBHeap
variable {V : Type} [Inhabited V]

/-- All observations through a root are those of a map left by the calls `ops`. -/
def KVObserves (cmp : Bytes → Bytes → Int) (f : Nat) (h : Heap (RD Bytes V)) (r : Ptr) (ops : List (KOp Bytes V)) : Prop :=
  (∀ q, answer (getP cmp f r q) h = some (lastWriteBy cmp ops q)) ∧
  ∃ l, answer (enumerateP f r) h = some l ∧ (l.Pairwise fun a b => cmp a.1 b.1 < 0) ∧
    ∀ k v, (k, v) ∈ l ↔ firstSpelling cmp ops k = some k ∧ lastWriteBy cmp ops k = some v

theorem rb_fuel {cmp : Bytes → Bytes → Int} (hrefl : ∀ k, cmp k k = 0) {ops : List (KOp Bytes V)} {n f : Nat} (hf : n + 1 ≤ f) (hn : ops.length ≤ n)
    {A : ATree (RD Bytes V)} (hE : ATree.erase A = (RB.run cmp ops).getD .nil) : A.height < f := by
  have e := RBHeap.erase_height A
  obtain ⟨_, _, h3⟩ := run_getD (V := V) hrefl ops
  rw [hE] at e
  omega

theorem kvObserves_of_rep {cmp : Bytes → Bytes → Int} (hc : LawfulCmp cmp) {ops : List (KOp Bytes V)} {n f : Nat} (hf : n + 1 ≤ f) (hn : ops.length ≤ n)
    {h : Heap (RD Bytes V)} {A : ATree (RD Bytes V)} (hA : ATree.Rep h A) (hE : ATree.erase A = (RB.run cmp ops).getD .nil) :
    KVObserves cmp f h (ATree.ptr A) ops := by
  have hh := rb_fuel hc.refl hf hn hE
  obtain ⟨h2, _, _⟩ := run_getD (V := V) hc.refl ops
  rw [← hE] at h2
  obtain ⟨h4, h5⟩ := RB.run_spec hc h2
  refine ⟨fun q => ?_, _, answer_of_wp (enumerateP_spec hh hA), h4, fun k v => ?_⟩
  · rw [answer_of_wp (getP_spec hh hA q), RB.get_run hc h2]
  · have h6 := h4.lookupL_iff hc k (k, v)
    rw [h5] at h6
    have h7 : ((k, v) ∈ RB.enumerate (ATree.erase A) ↔ (k, v) ∈ RB.enumerate (ATree.erase A) ∧ cmp k k = 0) := by simp [hc.refl]
    rw [h7, ← h6]
    cases firstSpelling cmp ops k <;> cases lastWriteBy cmp ops k <;> simp

/-- C13, C14: in every legal history no call panics or runs on, and every held tree shows exactly the entries its own chain of
calls left, whatever was derived from it or done to other trees. -/
theorem C13_history {cmp : Bytes → Bytes → Int} (hc : LawfulCmp cmp) (ops : List (SOp (KOp Bytes V))) {f : Nat} (hf : 2 * ops.length + 3 ≤ f)
    (hl : (Book.init : Book (KOp Bytes V)).LegalAll (rbImpl cmp f).inpOk ops) :
    ∃ s, Store.init.exec (rbImpl cmp f) ops = .ok s ∧ s.roots.length = (Book.init.exec ops).vs.length ∧
      ∀ (i : Nat) r v, s.roots[i]? = some r → (Book.init.exec ops).vs[i]? = some v → KVObserves cmp f s.heap r v.2 := by
  obtain ⟨s, e, _, h1, h2⟩ := client_history (rbImpl_lawful (V := V) hc.refl hf) ops (Nat.le_refl _) hl
  refine ⟨s, e, h1, fun i r v hr hv => ?_⟩
  obtain ⟨A, rfl, a1, a2, _, a5⟩ := h2 i r v hr hv
  exact kvObserves_of_rep hc (by omega) a5 a1 a2

/-- C13: whatever is derived afterwards by Insert and Delete, from this tree or others, a tree obtained earlier answers every
query exactly as it did when it was obtained.  Any comparison that calls each key equal to itself. -/
theorem C13_persistence {cmp : Bytes → Bytes → Int} (hrefl : ∀ k, cmp k k = 0) (pre post : List (SOp (KOp Bytes V))) (hc : CowOnly post) {f : Nat}
    (hf : 2 * (pre.length + post.length) + 3 ≤ f) (hl : (Book.init : Book (KOp Bytes V)).LegalAll (rbImpl cmp f).inpOk pre) :
    ∃ s s', Store.init.exec (rbImpl cmp f) pre = .ok s ∧ s.exec (rbImpl cmp f) post = .ok s' ∧
      ∀ (i : Nat) r, s.roots[i]? = some r → s'.roots[i]? = some r ∧
        (∀ k, answer (getP cmp f r k) s'.heap = answer (getP cmp f r k) s.heap ∧ answer (getP cmp f r k) s.heap ≠ none) ∧
        answer (enumerateP f r) s'.heap = answer (enumerateP f r) s.heap ∧ answer (enumerateP f r) s.heap ≠ none := by
  obtain ⟨s, s', e1, e2, h⟩ := client_persist (rbImpl_lawful (V := V) hrefl hf) pre post (Nat.le_refl _) hc hl
  refine ⟨s, s', e1, e2, fun i r hr => ?_⟩
  obtain ⟨h1, l, A, A', rA, rA', c1, d1, c2, d2, hn⟩ := h i r hr
  have c2 : ATree.erase A = (RB.run cmp l).getD .nil := c2
  have d2 : ATree.erase A' = (RB.run cmp l).getD .nil := d2
  have hh1 := rb_fuel hrefl (f := f) (by omega) hn c2
  have hh2 := rb_fuel hrefl (f := f) (by omega) hn d2
  refine ⟨h1, fun k => ?_, ?_⟩
  · have x1 := answer_of_wp (getP_spec (cmp := cmp) hh1 c1 k)
    have x2 := answer_of_wp (getP_spec (cmp := cmp) hh2 d1 k)
    rw [← rA, c2] at x1
    rw [← rA', d2] at x2
    rw [x1, x2]; simp
  · have x1 := answer_of_wp (enumerateP_spec hh1 c1)
    have x2 := answer_of_wp (enumerateP_spec hh2 d1)
    rw [← rA, c2] at x1
    rw [← rA', d2] at x2
    rw [x1, x2]; simp

/-- C14: after any legal history, an InplaceInsert into an exclusively held tree does not panic, leaves in the tree what the tree
returned by Insert would show, every other held tree shows what it showed before, and no memory cell outside the nodes of
that tree and new nodes is written. -/
theorem C14_inplace {cmp : Bytes → Bytes → Int} (hc : LawfulCmp cmp) (ops : List (SOp (KOp Bytes V))) {f : Nat} (hf : 2 * ops.length + 5 ≤ f)
    (hl : (Book.init : Book (KOp Bytes V)).LegalAll (rbImpl cmp f).inpOk ops) (i : Nat) (k : Bytes) (x : V)
    (hi : (Book.init.exec ops).Legal (rbImpl cmp f).inpOk (.inp i (.insert k x))) :
    ∃ s, Store.init.exec (rbImpl cmp f) ops = .ok s ∧ ∀ r v, s.roots[i]? = some r → (Book.init.exec ops).vs[i]? = some v →
      (∃ r' h', (inplaceInsertP cmp f r k x).run s.heap = .ok (r', h') ∧ KVObserves cmp f h' r' (.insert k x :: v.2) ∧
        (∀ (j : Nat) q u, j ≠ i → s.roots[j]? = some q → (Book.init.exec ops).vs[j]? = some u → KVObserves cmp f h' q u.2) ∧
        ∀ a, a < s.heap.next → ¬ Reach s.heap r a → h'.mem a = s.heap.mem a) ∧
      ∃ r' h', (insertP cmp f r k x).run s.heap = .ok (r', h') ∧ KVObserves cmp f h' r' (.insert k x :: v.2) ∧
        ∀ a, a < s.heap.next → h'.mem a = s.heap.mem a := by
  obtain ⟨s, e, h⟩ := client_inplace (rbImpl_lawful (V := V) (n := ops.length + 1) hc.refl (f := f) (by omega)) ops (Nat.lt_succ_self _) hl i (.insert k x) hi
  refine ⟨s, e, fun r v hr hv => ?_⟩
  obtain ⟨hn, ⟨r', h', A', r1, rfl, r2, r3, r4, r5⟩, ⟨q', k', B', q1, rfl, q2, q3, q4⟩⟩ := h r v hr hv
  refine ⟨⟨_, h', r1, kvObserves_of_rep hc (by omega) hn r2 r3, fun j q u hj hq hu => ?_, r5⟩, _, k', q1,
    kvObserves_of_rep hc (by omega) hn q2 q3, q4⟩
  obtain ⟨B, rfl, b1, b2, b3⟩ := r4 j q u hj hq hu
  exact kvObserves_of_rep hc (by omega) b3 b1 b2

/-- C14: the two calls give the same tree node for node: same keys, values, colours and shape. -/
theorem C14_same_shape {cmp : Bytes → Bytes → Int} (hrefl : ∀ k, cmp k k = 0) (ops : List (SOp (KOp Bytes V))) {f : Nat} (hf : 2 * ops.length + 5 ≤ f)
    (hl : (Book.init : Book (KOp Bytes V)).LegalAll (rbImpl cmp f).inpOk ops) (i : Nat) (k : Bytes) (x : V)
    (hi : (Book.init.exec ops).Legal (rbImpl cmp f).inpOk (.inp i (.insert k x))) :
    ∃ s, Store.init.exec (rbImpl cmp f) ops = .ok s ∧ ∀ r, s.roots[i]? = some r →
      ∃ (h1 h2 : Heap (RD Bytes V)) (A1 A2 : ATree (RD Bytes V)), (inplaceInsertP cmp f r k x).run s.heap = .ok (ATree.ptr A1, h1) ∧ ATree.Rep h1 A1 ∧
        (insertP cmp f r k x).run s.heap = .ok (ATree.ptr A2, h2) ∧ ATree.Rep h2 A2 ∧ ATree.erase A1 = ATree.erase A2 := by
  obtain ⟨s0, e0, _, hlen, _⟩ := client_history (rbImpl_lawful (V := V) (n := ops.length + 1) hrefl (f := f) (by omega)) ops (by omega) hl
  obtain ⟨s, e, h⟩ := client_inplace (rbImpl_lawful (V := V) (n := ops.length + 1) hrefl (f := f) (by omega)) ops (Nat.lt_succ_self _) hl i (.insert k x) hi
  have hs := Except.ok.inj (e.symm.trans e0)
  subst hs
  refine ⟨s, e, fun r hr => ?_⟩
  have hil : i < (Book.init.exec ops).vs.length := by rw [← hlen]; exact (List.getElem?_eq_some_iff.mp hr).1
  obtain ⟨_, ⟨r', h', A', r1, rfl, r2, r3, _, _⟩, ⟨q', k', B', q1, rfl, q2, q3, _⟩⟩ := h r _ hr (List.getElem?_eq_getElem hil)
  exact ⟨h', k', A', B', r1, r2, q1, q2, by rw [r3, q3]⟩

/-- C15, C18 in memory, with InplaceInsert calls among the history: no call panics or runs on; the nodes reachable from a held
tree form a tree (no node is met twice) that is red-black and of logarithmic height; Get and Enumerate end without panic. -/
theorem C15_memory {cmp : Bytes → Bytes → Int} (hrefl : ∀ k, cmp k k = 0) (ops : List (SOp (KOp Bytes V))) {f : Nat} (hf : 2 * ops.length + 3 ≤ f)
    (hl : (Book.init : Book (KOp Bytes V)).LegalAll (rbImpl cmp f).inpOk ops) :
    ∃ s, Store.init.exec (rbImpl cmp f) ops = .ok s ∧ ∀ (i : Nat) r, s.roots[i]? = some r →
      ∃ (A : ATree (RD Bytes V)) (l : List (Bytes × V)), r = ATree.ptr A ∧ ATree.Rep s.heap A ∧ (∀ a, Reach s.heap r a ↔ 1 ≤ ATree.cnt a A) ∧ (∀ a, ATree.cnt a A ≤ 1) ∧
        IsRedBlack RD.red (ATree.erase A) ∧ answer (enumerateP f r) s.heap = some l ∧ A.height ≤ 2 * Nat.log2 (l.length + 1) ∧
        ∀ q, answer (getP cmp f r q) s.heap ≠ none := by
  obtain ⟨s, e, _, hlen, h2⟩ := client_history (rbImpl_lawful (V := V) hrefl hf) ops (Nat.le_refl _) hl
  refine ⟨s, e, fun i r hr => ?_⟩
  have hil : i < (Book.init.exec ops).vs.length := by rw [← hlen]; exact (List.getElem?_eq_some_iff.mp hr).1
  obtain ⟨A, rfl, a1, a2, a3, a5⟩ := h2 i r _ hr (List.getElem?_eq_getElem hil)
  have hh := rb_fuel hrefl (f := f) (by omega) a5 a2
  obtain ⟨_, hb, _⟩ := run_getD (V := V) hrefl ((Book.init.exec ops).vs[i]).2
  rw [← show ATree.erase A = (RB.run cmp ((Book.init.exec ops).vs[i]).2).getD .nil from a2] at hb
  refine ⟨A, _, rfl, a1, fun a => reach_iff a1 a, a3, hb.isRedBlack, answer_of_wp (enumerateP_spec hh a1), ?_, fun q => ?_⟩
  · rw [RB.length_enumerate, ← RBHeap.erase_height]
    exact hb.height_le
  · rw [answer_of_wp (getP_spec hh a1 q)]; simp

/-- C16 in memory: after any legal history, Delete on a held tree reports whether Get finds the key, and the tree it returns
lists what the held tree lists without the pairs of equal keys. -/
theorem C16_memory {cmp : Bytes → Bytes → Int} (hc : LawfulCmp cmp) (ops : List (SOp (KOp Bytes V))) {f : Nat} (hf : 2 * ops.length + 3 ≤ f)
    (hl : (Book.init : Book (KOp Bytes V)).LegalAll (rbImpl cmp f).inpOk ops) (k : Bytes) :
    ∃ s, Store.init.exec (rbImpl cmp f) ops = .ok s ∧ ∀ (i : Nat) r, s.roots[i]? = some r →
      ∃ r' b h' g l, (delP cmp f r k).run s.heap = .ok ((r', b), h') ∧ answer (getP cmp f r k) s.heap = some g ∧ b = g.isSome ∧
        answer (enumerateP f r) s.heap = some l ∧ answer (enumerateP f r') h' = some (l.filter fun p => decide (cmp p.1 k ≠ 0)) ∧
        answer (enumerateP f r) h' = some l ∧ ∀ a, a < s.heap.next → h'.mem a = s.heap.mem a := by
  obtain ⟨s, e, _, hlen, h2⟩ := client_history (rbImpl_lawful (V := V) hc.refl hf) ops (Nat.le_refl _) hl
  refine ⟨s, e, fun i r hr => ?_⟩
  have hil : i < (Book.init.exec ops).vs.length := by rw [← hlen]; exact (List.getElem?_eq_some_iff.mp hr).1
  obtain ⟨A, rfl, a1, a2, a3, a5⟩ := h2 i r _ hr (List.getElem?_eq_getElem hil)
  have a2 : ATree.erase A = (RB.run cmp ((Book.init.exec ops).vs[i]).2).getD .nil := a2
  have hh := rb_fuel hc.refl (f := f) (by omega) a5 a2
  obtain ⟨hrun, hb, hht⟩ := run_getD (V := V) hc.refl ((Book.init.exec ops).vs[i]).2
  rw [← a2] at hb hrun hht
  obtain ⟨⟨r', b⟩, h', r1, ⟨A', q1, q2, q3, q4⟩, r5, r6⟩ := Prog.wp_run (delP_spec (cmp := cmp) a1 a3 (f := f) (by omega) (key := k) hb)
  simp only at q1 q3
  subst q1
  have h5 := (RB.run_spec hc hrun).1
  have hd := RB.del_spec hc h5 k
  rw [← q3] at hd
  have hsz := RB.del_size (cmp := cmp) (ATree.erase A) k
  rw [← q3] at hsz
  have hs2 := RB.run_size hc.refl hrun
  have hA' : A'.height < f := by
    have := height_le_size (ATree.erase A')
    rw [RBHeap.erase_height] at this
    simp only at hsz
    omega
  have a1' : ATree.Rep h' A := ATree.rep_frame a1 r5 fun a ha => r6 a (ATree.rep_lt a1 ha) (by have := ATree.rep_lt a1 ha; omega)
  refine ⟨_, b, h', _, _, r1, answer_of_wp (getP_spec hh a1 k), ?_, answer_of_wp (enumerateP_spec hh a1), ?_, ?_, fun a ha => r6 a ha (by omega)⟩
  · rw [RB.get_spec hc h5, Option.isSome_map, Bool.eq_iff_iff, hd.2, Option.isSome_iff_exists]
    constructor
    · rintro ⟨a, ha, h⟩; exact ⟨a, (h5.lookupL_iff hc k a).2 ⟨ha, h⟩⟩
    · rintro ⟨a, ha⟩; exact ⟨a, (h5.lookupL_iff hc k a).1 ha⟩
  · rw [answer_of_wp (enumerateP_spec hA' q2), hd.1, RB.eraseL_eq_filter hc h5]
  · exact answer_of_wp (enumerateP_spec hh a1')

/-- C17 in place: InplaceInsert of an equal key replaces the value and nothing else; spelling and order stay. -/
theorem C17_inplace {cmp : Bytes → Bytes → Int} (hc : LawfulCmp cmp) (ops : List (SOp (KOp Bytes V))) {f : Nat} (hf : 2 * ops.length + 5 ≤ f)
    (hl : (Book.init : Book (KOp Bytes V)).LegalAll (rbImpl cmp f).inpOk ops) (i : Nat) (k : Bytes) (x : V)
    (hi : (Book.init.exec ops).Legal (rbImpl cmp f).inpOk (.inp i (.insert k x))) :
    ∃ s, Store.init.exec (rbImpl cmp f) ops = .ok s ∧ ∀ r y, s.roots[i]? = some r → answer (getP cmp f r k) s.heap = some (some y) →
      ∃ r' h' l, (inplaceInsertP cmp f r k x).run s.heap = .ok (r', h') ∧ answer (enumerateP f r) s.heap = some l ∧
        answer (enumerateP f r') h' = some (l.map fun p => if cmp p.1 k = 0 then (p.1, x) else p) := by
  have hI := rbImpl_lawful (V := V) (n := ops.length + 1) hc.refl (f := f) (by omega)
  obtain ⟨s0, e0, _, hlen, hh⟩ := client_history hI ops (by omega) hl
  obtain ⟨s, e, h⟩ := client_inplace hI ops (Nat.lt_succ_self _) hl i (.insert k x) hi
  have hs := Except.ok.inj (e.symm.trans e0)
  subst hs
  refine ⟨s, e, fun r y hr hy => ?_⟩
  have hil : i < (Book.init.exec ops).vs.length := by rw [← hlen]; exact (List.getElem?_eq_some_iff.mp hr).1
  obtain ⟨A, rfl, a1, a2, a3, a5⟩ := hh i r _ hr (List.getElem?_eq_getElem hil)
  have a2 : ATree.erase A = (RB.run cmp ((Book.init.exec ops).vs[i]).2).getD .nil := a2
  obtain ⟨hn, ⟨r', h', A', r1, rfl, r2, r3, _, _⟩, _⟩ := h _ _ hr (List.getElem?_eq_getElem hil)
  have r3 : ATree.erase A' = (RB.run cmp (.insert k x :: ((Book.init.exec ops).vs[i]).2)).getD .nil := r3
  have hA := rb_fuel hc.refl (f := f) (by omega) a5 a2
  have hA' := rb_fuel hc.refl (f := f) (by omega) hn r3
  obtain ⟨hrun, hb, _⟩ := run_getD (V := V) hc.refl ((Book.init.exec ops).vs[i]).2
  obtain ⟨hrun', _, _⟩ := run_getD (V := V) hc.refl (.insert k x :: ((Book.init.exec ops).vs[i]).2)
  rw [← a2] at hrun
  rw [← r3] at hrun'
  have h5 := (RB.run_spec hc hrun).1
  simp only [RB.run, hrun, Option.bind_some] at hrun'
  refine ⟨_, h', _, r1, answer_of_wp (enumerateP_spec hA a1), ?_⟩
  rw [answer_of_wp (enumerateP_spec hA' r2), RB.insert_spec hc hrun' h5, RB.insertL_eq_map hc h5]
  rw [answer_of_wp (getP_spec hA a1 k), RB.get_spec hc h5] at hy
  simp only [Option.some.injEq, Option.map_eq_some_iff] at hy
  obtain ⟨a, ha, _⟩ := hy
  exact ⟨a, (h5.lookupL_iff hc k a).1 ha⟩

/-- C50 (strtree): after any legal history, for every schedule of the memory accesses of a Get on a held tree with those of an
Insert or Delete deriving a new tree from a held tree, the reader never fails, ends once it has had enough turns, and
answers as the old tree does; the writer's result is the one of a run alone. -/
theorem C50_strtree_get {cmp : Bytes → Bytes → Int} (hc : LawfulCmp cmp) (ops : List (SOp (KOp Bytes V))) {f : Nat} (hf : 2 * ops.length + 5 ≤ f)
    (hl : (Book.init : Book (KOp Bytes V)).LegalAll (rbImpl cmp f).inpOk ops) (o : KOp Bytes V) (k : Bytes) (sched : List Bool) :
    ∃ s, Store.init.exec (rbImpl cmp f) ops = .ok s ∧ ∀ (i j : Nat) r v q, s.roots[i]? = some r → (Book.init.exec ops).vs[i]? = some v → s.roots[j]? = some q →
      let W := (rbImpl cmp f).cow o q
      let e := (Duo.mk (getP cmp f r k) W s.heap).exec sched
      (∀ x, e.reader ≠ .stop x) ∧ (∀ x, e.writer ≠ .stop x) ∧ ((getP cmp f r k).left s.heap ≤ sched.count true → ∃ x, e.reader = .ret x) ∧
      (∀ x, e.reader = .ret x → x = lastWriteBy cmp v.2 k) ∧ ∀ y, e.writer = .ret y → W.run s.heap = .ok (y, e.heap) :=
  client_duo (rbImpl_lawful (V := V) (n := ops.length + 1) hc.refl (f := f) (by omega)) ops (Nat.lt_succ_self _) hl o sched
    (fun r => getP cmp f r k) (fun r => getP_readOnly f r k) (fun l x => x = lastWriteBy cmp l k) fun A h l hn hA hE => by
      have hE : ATree.erase A = (RB.run cmp l).getD .nil := hE
      refine Prog.wp_conseq (getP_spec (rb_fuel hc.refl (n := ops.length + 1) (by omega) hn hE) hA k) ?_
      rintro x _ ⟨_, rfl⟩
      rw [RB.get_run hc (by rw [hE]; exact (run_getD hc.refl l).1)]

/-- C50 (strtree), the same for the walk of Enumerate. -/
theorem C50_strtree_enumerate {cmp : Bytes → Bytes → Int} (hc : LawfulCmp cmp) (ops : List (SOp (KOp Bytes V))) {f : Nat} (hf : 2 * ops.length + 5 ≤ f)
    (hl : (Book.init : Book (KOp Bytes V)).LegalAll (rbImpl cmp f).inpOk ops) (o : KOp Bytes V) (sched : List Bool) :
    ∃ s, Store.init.exec (rbImpl cmp f) ops = .ok s ∧ ∀ (i j : Nat) r v q, s.roots[i]? = some r → (Book.init.exec ops).vs[i]? = some v → s.roots[j]? = some q →
      let W := (rbImpl cmp f).cow o q
      let e := (Duo.mk (enumerateP f r) W s.heap).exec sched
      (∀ x, e.reader ≠ .stop x) ∧ (∀ x, e.writer ≠ .stop x) ∧ ((enumerateP f r).left s.heap ≤ sched.count true → ∃ x, e.reader = .ret x) ∧
      (∀ l, e.reader = .ret l → answer (enumerateP f r) s.heap = some l) ∧ ∀ y, e.writer = .ret y → W.run s.heap = .ok (y, e.heap) := by
  obtain ⟨s, e, h⟩ := client_duo (rbImpl_lawful (V := V) (n := ops.length + 1) hc.refl (f := f) (by omega)) ops (Nat.lt_succ_self _) hl o sched
    (fun r => enumerateP f r) (fun r => enumerateP_readOnly f r) (fun m l => l = RB.enumerate ((RB.run cmp m).getD .nil)) fun A h l hn hA hE => by
      have hE : ATree.erase A = (RB.run cmp l).getD .nil := hE
      refine Prog.wp_conseq (enumerateP_spec (rb_fuel hc.refl (n := ops.length + 1) (by omega) hn hE) hA) ?_
      rintro x _ ⟨_, rfl⟩
      rw [hE]
  obtain ⟨s0, e0, _, _, h2⟩ := client_history (rbImpl_lawful (V := V) (n := ops.length + 1) hc.refl (f := f) (by omega)) ops (by omega) hl
  have hs := Except.ok.inj (e.symm.trans e0)
  subst hs
  refine ⟨s, e, fun i j r v q hr hv hq => ?_⟩
  obtain ⟨x1, x2, x3, x4, x5⟩ := h i j r v q hr hv hq
  refine ⟨x1, x2, x3, fun l hl => ?_, x5⟩
  obtain ⟨A, rfl, a1, a2, _, a5⟩ := h2 i r v hr hv
  rw [x4 l hl, answer_of_wp (enumerateP_spec (rb_fuel hc.refl (n := ops.length + 1) (by omega) a5 a2) a1)]
  rw [show ATree.erase A = _ from a2]
  rfl

/-! ## Concrete cases -/

/-- A history with sharing: trees 1-7 insert six keys one after another, 8 deletes from 7, 9 deletes an absent key from 7,
10 derives from the old tree 3, then a separate tree 11 with in-place calls. -/
def kvSample : List (SOp (KOp Bytes Nat)) :=
  [.fresh, .cow 0 (.insert [1] 1), .cow 1 (.insert [2] 2), .cow 2 (.insert [3] 3), .cow 3 (.insert [4] 4), .cow 4 (.insert [5] 5),
   .cow 5 (.insert [6] 6), .cow 6 (.delete [2]), .cow 6 (.delete [9]), .cow 3 (.insert [0] 7),
   .fresh, .inp 10 (.insert [1] 1), .inp 10 (.insert [2] 2), .inp 10 (.insert [3] 3), .inp 10 (.insert [2] 8)]

/-- What Enumerate lists on every tree of the sample. -/
def kvAnswers : Option (List (Option (List (Bytes × Nat)))) :=
  match Store.init.exec (rbImpl compareBytes 33) kvSample with
  | .ok s => some (s.roots.map fun r => answer (enumerateP 33 r) s.heap)
  | .error _ => none

example : kvAnswers = some [some [], some [([1], 1)], some [([1], 1), ([2], 2)], some [([1], 1), ([2], 2), ([3], 3)],
    some [([1], 1), ([2], 2), ([3], 3), ([4], 4)], some [([1], 1), ([2], 2), ([3], 3), ([4], 4), ([5], 5)],
    some [([1], 1), ([2], 2), ([3], 3), ([4], 4), ([5], 5), ([6], 6)], some [([1], 1), ([3], 3), ([4], 4), ([5], 5), ([6], 6)],
    some [([1], 1), ([2], 2), ([3], 3), ([4], 4), ([5], 5), ([6], 6)], some [([0], 7), ([1], 1), ([2], 2), ([3], 3)],
    some [([1], 1), ([2], 8), ([3], 3)]] := by decide +kernel

/-- The sample meets the hypotheses: the in-place calls are on a tree nobody else shares. -/
theorem kvSample_legal : (Book.init : Book (KOp Bytes Nat)).LegalAll (rbImpl compareBytes 33).inpOk kvSample := by
  refine ⟨trivial, trivial, trivial, trivial, trivial, trivial, trivial, trivial, trivial, trivial, trivial, ⟨trivial, ?_⟩, ⟨trivial, ?_⟩,
    ⟨trivial, ?_⟩, ⟨trivial, ?_⟩, trivial⟩
  all_goals
    intro v hv j u hj hu
    simp [Book.init, Book.step] at hv hu
    subst hv
    rcases j with _ | _ | _ | _ | _ | _ | _ | _ | _ | _ | _ | j <;> simp at hu <;> simp [← hu] at *

/-- In-place calls on a shared tree are not covered, and do change the other tree: tree 3 is derived from tree 2 and shares
the node with key 1, below which the in-place call on tree 3 puts the new key, so tree 2 lists it too. -/
example : (match Store.init.exec (rbImpl (V := Nat) compareBytes 33) [.fresh, .cow 0 (.insert [2] 2), .cow 1 (.insert [1] 1), .cow 2 (.insert [3] 3),
      .cow 3 (.insert [4] 4), .inp 3 (.insert [0] 0)] with
    | .ok s => s.roots.map fun r => answer (enumerateP 33 r) s.heap
    | .error _ => []) =
  [some [], some [([2], 2)], some [([0], 0), ([1], 1), ([2], 2)], some [([0], 0), ([1], 1), ([2], 2), ([3], 3)],
    some [([1], 1), ([2], 2), ([3], 3), ([4], 4)]] := by decide +kernel

end Verif.Props
