import Verif.DomHeap.Crash
import Verif.Props.Domaintree

/-!
# Property theorems for domaintree on memory (C33, memory part of C34, domaintree part of C50)

A client history is a list of steps on the list of trees the client holds (`SOp`): start a tree (the zero `Node` if `st`, else a
nil `*Node`), derive a tree from any held tree by `Insert`, `Delete` or `DeleteSubdomains`, call `InplaceInsert` on a held tree,
forget a tree.  A held tree is a pointer to its `Node`.
`Book.init.exec ops` is the client's own record: for every held tree the starting tree it comes from and the calls that made
it (newest first).  Names come from `MakeNameFromString`; calls known to panic (`C34_false`, `C35_delete_partial`) are not part
of the histories.  In-place calls are legal on a tree no other held tree shares its origin with.  `f` bounds the number of loop
iterations in dltree and the depth of the walk of `Enumerate`; every bound above the stated one gives the same results.
-/

namespace Verif.Props
open Verif Verif.Heap Verif.Domain Verif.DomTree Verif.DomHeap
variable {V : Type}

/-- The pairs list exactly the entries of `m`, each once, with keys that parse to the stored domains. -/
def ListsAs (xs : List (Bytes × V)) (m : DMap V) : Prop :=
  ∃ es : List (List Bytes × V), xs.map (fun x => (parseLabels x.1, x.2)) = es.map (fun e => (some e.1, e.2)) ∧
    (es.map Prod.fst).Nodup ∧ ∀ q v, (q, v) ∈ es ↔ m q = some v

/-- All observations through a tree are those of the domains left by the calls `l` (the value of the root domain is only
seen by `Enumerate`, see C29). -/
def DomObserves (f : Nat) (h : Heap (DD V)) (r : Ptr) (l : List (Op V)) : Prop :=
  (∀ d ls, Parsed d ls → ∃ x, answer (GetP f r d) h = some x ∧ DMap.IsClosest (storedBy l).noRoot ls x) ∧
  ∃ xs, answer (EnumerateTreeP f r) h = some xs ∧ ListsAs xs (storedBy l)

/-- What `storedBy` is for calls with names from text. -/
theorem C33_stored (l : List (Op V)) (h : ∀ o ∈ l, Named o) : ∃ ps : List (Op V × DOp V), ps.map Prod.fst = l ∧ (∀ p ∈ ps, OpDom p.1 p.2) ∧
    ∀ q, storedBy l q = lastDom (ps.map Prod.snd) q := by
  obtain ⟨ps, h1, h2, h3, _⟩ := named_ops h
  exact ⟨ps, h1, h2, fun q => by rw [storedBy, h3]⟩

theorem get_of_run {st : Bool} {l : List (Op V)} (h : ∀ o ∈ l, Named o) {n : Option (Node V)} (hr : DomTree.run (start0 st) l = some n) {d : Name} {ls : List Bytes}
    (hd : Parsed d ls) : ∃ x, DomTree.Get n d = some x ∧ DMap.IsClosest (storedBy l).noRoot ls x := by
  obtain ⟨ps, rfl, h2, h3, _⟩ := named_ops h
  rw [storedBy, ← h3]
  exact C29_closest_partial (start0_empty st) ps h2 hr hd

theorem lists_of_run {st : Bool} {l : List (Op V)} (h : ∀ o ∈ l, Named o) {n : Option (Node V)} (hr : DomTree.run (start0 st) l = some n) :
    ∃ xs, DomTree.Enumerate n = some xs ∧ ListsAs xs (storedBy l) := by
  obtain ⟨ps, rfl, h2, h3, _⟩ := named_ops h
  rw [storedBy, ← h3]
  obtain ⟨xs, es, e1, e2⟩ := C32_enumerate (start0_empty st) ps h2 hr
  exact ⟨xs, e1, es, e2⟩

theorem dom_get_answer {m f : Nat} (hf : DLHeap.tall m < f) {h : Heap (DD V)} {r : Ptr} {n : Option (Node V)} {F : Addr → Prop} (hN : PRep m h 128 r n F) {d : Name} {ls : List Bytes}
    (hd : Parsed d ls) {x : Option V} (hx : DomTree.Get n d = some x) : answer (GetP f r d) h = some x := by
  refine answer_of_wp (W := fun _ => False) (Prog.wp_conseq (GetP_spec hf hN hd.holds (by have := hd.holds.count; omega)) ?_)
  rintro y h' ⟨e, hy⟩
  rw [hx] at hy
  exact ⟨e, (Option.some.inj hy).symm⟩

theorem domObserves_of_rep {st : Bool} {f : Nat} {h : Heap (DD V)} {r : Ptr} {F : Addr → Prop} {l : List (Op V)} (hf : l.length < f) (hk : 128 ≤ f)
    (ho : (domImpl st f).Obj h r l F) : DomObserves f h r l := by
  obtain ⟨h0, n, hr, hN⟩ := ho
  refine ⟨fun d ls hd => ?_, ?_⟩
  · obtain ⟨x, h1, h2⟩ := get_of_run h0 hr hd
    exact ⟨x, dom_get_answer (DLHeap.tall_lt hf) hN hd h1, h2⟩
  · obtain ⟨xs, h1, h2⟩ := lists_of_run h0 hr
    exact ⟨xs, answer_of_wp (W := fun _ => False) (EnumerateTreeP_spec (DLHeap.tall_lt hf) hk hN h1), h2⟩

/-- C33: in every legal history no call panics or runs on, and every held tree shows exactly the domains its own chain of calls
left, whatever was derived from it or done to other trees. -/
theorem C33_history (st : Bool) (ops : List (SOp (Op V))) {f : Nat} (hf : 2 * ops.length + 3 ≤ f) (hk : 128 ≤ f)
    (hl : (Book.init : Book (Op V)).LegalAll2 cowOk (inpOk st) ops) :
    ∃ s, OStore.init.exec (domImpl st f) ops = .ok s ∧ s.roots.length = (Book.init.exec ops).vs.length ∧
      ∀ (i : Nat) r v, s.roots[i]? = some r → (Book.init.exec ops).vs[i]? = some v → DomObserves f s.heap r v.2 := by
  obtain ⟨s, e, _, h1, h2⟩ := obj_history (domImpl_lawful (V := V) st hf) ops (Nat.le_refl _) hl
  refine ⟨s, e, h1, fun i r v hr hv => ?_⟩
  obtain ⟨hn, F, ho⟩ := h2 i r v hr hv
  exact domObserves_of_rep (by omega) hk ho

/-- C33: whatever is derived afterwards by Insert, Delete and DeleteSubdomains, from this tree or others, a tree obtained earlier
answers every query exactly as it did when it was obtained. -/
theorem C33_persistence (st : Bool) (pre post : List (SOp (Op V))) {f : Nat} (hf : 2 * (pre.length + post.length) + 3 ≤ f) (hk : 128 ≤ f) (hc : CowOnly post)
    (hl : (Book.init : Book (Op V)).LegalAll2 cowOk (inpOk st) pre) (hl2 : (Book.init.exec pre).LegalAll2 cowOk (inpOk st) post) :
    ∃ s s', OStore.init.exec (domImpl st f) pre = .ok s ∧ s.exec (domImpl st f) post = .ok s' ∧
      ∀ (i : Nat) r, s.roots[i]? = some r → s'.roots[i]? = some r ∧
        (∀ d ls, Parsed d ls → answer (GetP f r d) s'.heap = answer (GetP f r d) s.heap ∧ answer (GetP f r d) s.heap ≠ none) ∧
        answer (EnumerateTreeP f r) s'.heap = answer (EnumerateTreeP f r) s.heap ∧ answer (EnumerateTreeP f r) s.heap ≠ none := by
  obtain ⟨s, s', e1, e2, h⟩ := obj_persist (domImpl_lawful (V := V) st hf) pre post (Nat.le_refl _) hc hl hl2
  refine ⟨s, s', e1, e2, fun i r hr => ?_⟩
  obtain ⟨h1, l, F, F', ⟨n0, t, ht, hT⟩, ⟨_, t', ht', hT'⟩, hn⟩ := h i r hr
  rw [ht] at ht'; cases ht'
  have hm : l.length < f := by omega
  refine ⟨h1, fun d ls hd => ?_, ?_⟩
  · obtain ⟨x, hx, _⟩ := get_of_run n0 ht hd
    rw [dom_get_answer (DLHeap.tall_lt hm) hT hd hx, dom_get_answer (DLHeap.tall_lt hm) hT' hd hx]; simp
  · obtain ⟨xs, hx, _⟩ := lists_of_run n0 ht
    rw [answer_of_wp (W := fun _ => False) (EnumerateTreeP_spec (DLHeap.tall_lt hm) hk hT hx), answer_of_wp (W := fun _ => False) (EnumerateTreeP_spec (DLHeap.tall_lt hm) hk hT' hx)]; simp

/-- C33: Insert, Delete and DeleteSubdomains write no existing cell, hence neither the tree they are called on nor any other. -/
theorem C33_no_write (st : Bool) (ops : List (SOp (Op V))) {f : Nat} (hf : 2 * (ops.length + 1) + 3 ≤ f)
    (hl : (Book.init : Book (Op V)).LegalAll2 cowOk (inpOk st) ops) (o : Op V) :
    ∃ s, OStore.init.exec (domImpl st f) ops = .ok s ∧ ∀ (i : Nat) r v, s.roots[i]? = some r → (Book.init.exec ops).vs[i]? = some v → cowOk v.2 o →
      ∃ r' h', (cowP f o r).run s.heap = .ok (r', h') ∧ ∀ a, a < s.heap.next → h'.mem a = s.heap.mem a := by
  obtain ⟨s, e, hk, h1, h2⟩ := obj_history (domImpl_lawful (V := V) st hf) ops (Nat.le_succ _) hl
  refine ⟨s, e, fun i r v hr hv ho => ?_⟩
  obtain ⟨_, F, hO⟩ := h2 i r v hr hv
  have hvn : v.2.length < ops.length + 1 := by
    obtain ⟨s', e', _, _, h2'⟩ := obj_history (domImpl_lawful (V := V) st (n := ops.length) (f := f) (by omega)) ops (Nat.le_refl _) hl
    rw [e] at e'; cases e'
    exact Nat.lt_succ_of_le (h2' i r v hr hv).1
  have := (domImpl_lawful (V := V) st hf).cow_ok v.2 o r s.heap F hvn ho hO
  obtain ⟨r', h', q, ⟨_, _, w⟩, _⟩ := Prog.wp_run (Prog.wp_frame this)
  exact ⟨r', h', q, fun a ha => w a ha (by omega)⟩

/-- C34: after any legal history, InplaceInsert on an exclusively held tree leaves in the tree what the tree returned by Insert
shows, and every other held tree shows what it showed before.  Missing: the calls that panic (`C34_false`) are excluded by `inpOk`. -/
theorem C34_inplace_partial (st : Bool) (ops : List (SOp (Op V))) {f : Nat} (hf : 2 * (ops.length + 1) + 3 ≤ f) (hk : 128 ≤ f)
    (hl : (Book.init : Book (Op V)).LegalAll2 cowOk (inpOk st) ops) (i : Nat) (d : Name) (x : V)
    (hi : ((Book.init : Book (Op V)).exec ops).Legal2 cowOk (inpOk st) (.inp i (.inplace d x))) :
    ∃ s, OStore.init.exec (domImpl st f) ops = .ok s ∧ ∀ r v, s.roots[i]? = some r → (Book.init.exec ops).vs[i]? = some v →
      (∃ h', (InplaceInsertP f r d x).run s.heap = .ok ((), h') ∧ DomObserves f h' r (.insert d x :: v.2) ∧
        ∀ (j : Nat) q u, j ≠ i → s.roots[j]? = some q → (Book.init.exec ops).vs[j]? = some u → DomObserves f h' q u.2) ∧
      ∃ r' h', (InsertP f r d x).run s.heap = .ok (r', h') ∧ DomObserves f h' r' (.insert d x :: v.2) ∧
        ∀ a, a < s.heap.next → h'.mem a = s.heap.mem a := by
  obtain ⟨s, e, h⟩ := obj_inplace (domImpl_lawful (V := V) st hf) ops (Nat.lt_succ_self _) hl i (.inplace d x) (.insert d x)
    (fun v hv => ⟨(hi v hv).1.1, trivial⟩) hi
  refine ⟨s, e, fun r v hr hv => ?_⟩
  obtain ⟨hvn, ⟨r', h', F, F', _, r1, rO, r3, _⟩, ⟨q', k', G', q1, qO, q3⟩⟩ := h r v hr hv
  refine ⟨?_, q', k', q1, domObserves_of_rep (by simp; omega) hk qO, q3⟩
  have r1 : ((do InplaceInsertP f r d x; pure r) : Prog (DD V) Ptr).run s.heap = .ok (r', h') := r1
  rw [Prog.run_bind] at r1
  cases e1 : (InplaceInsertP f r d x).run s.heap with
  | error er => rw [e1] at r1; cases r1
  | ok z =>
    rw [e1] at r1
    cases r1
    refine ⟨_, rfl, ?_, fun j q u hj hq hu => ?_⟩
    · exact domObserves_of_rep (l := .inplace d x :: v.2) (by simp; omega) hk rO
    · obtain ⟨hn, F, hO⟩ := r3 j q u hj hq hu
      exact domObserves_of_rep (by omega) hk hO

/-- C34: the calls InplaceInsert is covered for include all of those on trees made from the zero node without Insert (deletions of
names of up to 126 labels). -/
theorem C34_covered_partial (l : List (Op V)) (h : ∀ o ∈ l, Named o ∧ o.noInsert) (d : Name) (x : V) (hd : Named (.inplace d x)) :
    inpOk true l (.inplace d x) := by
  have hN := fun o ho => (h o ho).1
  obtain ⟨ps, rfl, h2, _⟩ := named_ops hN
  obtain ⟨n, h3, h4⟩ := C34_no_panic_partial ps h2 fun p hp => (h p.1 (List.mem_map_of_mem hp)).2
  refine (inplace_iff (st := true) hN h3 hd).1 ?_
  obtain ⟨s, hs⟩ := hd
  obtain ⟨ls, hl⟩ := holds_of_parse hs
  exact h4 d ls ⟨⟨s, hs⟩, hl.labels⟩ x

/-- C35: after any legal history, every call with a name from text either succeeds or panics, and which of the two is known from
the calls that made the tree: deletions panic exactly for stored names of 127 labels, InplaceInsert exactly for nil trees and
names below closed names.  A call that panics leaves every held tree as it was. -/
theorem C35_panic_safe (st : Bool) (ops : List (SOp (Op V))) {f : Nat} (hf : 2 * ops.length + 3 ≤ f) (hk : 128 ≤ f)
    (hl : (Book.init : Book (Op V)).LegalAll2 cowOk (inpOk st) ops) (o : Op V) (ho : Named o) :
    ∃ s, OStore.init.exec (domImpl st f) ops = .ok s ∧ ∀ (i : Nat) r v, s.roots[i]? = some r → (Book.init.exec ops).vs[i]? = some v →
      (Covered st v.2 o → ∃ x, (callP f o r).run s.heap = .ok x) ∧
      (¬ Covered st v.2 o → ∃ h', (callP f o r).crash s.heap = some (.panic, h') ∧ (∀ a, a < s.heap.next → h'.mem a = s.heap.mem a) ∧
        ∀ (j : Nat) q u, s.roots[j]? = some q → (Book.init.exec ops).vs[j]? = some u → DomObserves f h' q u.2) := by
  obtain ⟨s, e, _, h1, h2⟩ := obj_history (domImpl_lawful (V := V) st hf) ops (Nat.le_refl _) hl
  refine ⟨s, e, fun i r v hr hv => ?_⟩
  obtain ⟨hn, F, h0, n, hrun, hN⟩ := h2 i r v hr hv
  have hiff := step_iff h0 hrun ho
  constructor
  · intro hc
    have hlaw := domImpl_lawful (V := V) st (f := f) (n := v.2.length) (by omega)
    obtain ⟨n', hs⟩ := Option.ne_none_iff_exists'.1 (hiff.2 hc)
    obtain ⟨ss, hs'⟩ := ho
    obtain ⟨ls, hd⟩ := holds_of_parse hs'
    have hk' : ls.length < 128 := by have := hd.count; omega
    have hf' : 2 * v.2.length + 3 ≤ f := by omega
    cases o with
    | insert d x =>
      obtain ⟨y, h', q, _⟩ := Prog.wp_run (InsertP_spec (DLHeap.tall_two hf') hN hd hk' x hs)
      exact ⟨(y, h'), q⟩
    | inplace d x =>
      obtain ⟨y, h', q, _⟩ := Prog.wp_run (InplaceInsertP_spec (DLHeap.tall_two hf') hN hd hk' x hs)
      refine ⟨(r, h'), ?_⟩
      show ((do InplaceInsertP f r d x; pure r) : Prog (DD V) Ptr).run s.heap = _
      rw [Prog.run_bind, show (InplaceInsertP f r d x).run s.heap = .ok (y, h') from q]; rfl
    | delete d =>
      simp only [DomTree.step, Option.map_eq_some_iff] at hs
      obtain ⟨⟨t1, b⟩, hs, rfl⟩ := hs
      obtain ⟨y, h', q, _⟩ := Prog.wp_run (DeleteP_spec (DLHeap.tall_two hf') hN hd hk' hs)
      refine ⟨(y.1, h'), ?_⟩
      show ((do let x ← DeleteP f r d; pure x.1) : Prog (DD V) Ptr).run s.heap = _
      rw [Prog.run_bind, show (DeleteP f r d).run s.heap = .ok (y, h') from q]; rfl
    | deleteSub d =>
      simp only [DomTree.step, Option.map_eq_some_iff] at hs
      obtain ⟨⟨t1, b⟩, hs, rfl⟩ := hs
      obtain ⟨y, h', q, _⟩ := Prog.wp_run (DeleteSubdomainsP_spec (DLHeap.tall_two hf') hN hd hk' hs)
      refine ⟨(y.1, h'), ?_⟩
      show ((do let x ← DeleteSubdomainsP f r d; pure x.1) : Prog (DD V) Ptr).run s.heap = _
      rw [Prog.run_bind, show (DeleteSubdomainsP f r d).run s.heap = .ok (y, h') from q]; rfl
  · intro hc
    have hs : DomTree.step n o = none := by
      cases hx : DomTree.step n o with
      | none => rfl
      | some y => exact (hc (hiff.1 (by rw [hx]; simp))).elim
    obtain ⟨h', p1, _, p2, p3⟩ := Prog.pan_crash (step_panic (f := f) (DLHeap.tall_lt (by omega)) hN (run_stored h0 hrun).1 ho hs)
    have hm : ∀ a, a < s.heap.next → h'.mem a = s.heap.mem a := fun a ha => p3 a ha (by omega)
    refine ⟨h', p1, hm, fun j q u hq hu => ?_⟩
    obtain ⟨hn', G, g0, t, g1, g2⟩ := h2 j q u hq hu
    exact domObserves_of_rep (st := st) (by omega) hk ⟨g0, t, g1, g2.frame p2 fun x hx => hm x (g2.lt hx)⟩

/-- C50 (domaintree): after any legal history, for every schedule of the memory accesses of a Get on a held tree with those of an
Insert, Delete or DeleteSubdomains deriving a new tree from a held tree, the reader never fails, ends once it has had enough
turns, and answers as the old tree does; the writer's result is the one of a run alone. -/
theorem C50_domaintree_get (st : Bool) (ops : List (SOp (Op V))) {f : Nat} (hf : 2 * (ops.length + 1) + 3 ≤ f)
    (hl : (Book.init : Book (Op V)).LegalAll2 cowOk (inpOk st) ops) (o : Op V) {d : Name} {ls : List Bytes} (hd : Parsed d ls) (sched : List Bool) :
    ∃ s, OStore.init.exec (domImpl st f) ops = .ok s ∧ ∀ (i j : Nat) r v q, s.roots[i]? = some r → (Book.init.exec ops).vs[i]? = some v → s.roots[j]? = some q →
      (Book.init.exec ops).Legal2 cowOk (inpOk st) (.cow j o) →
      let W := cowP f o q
      let e := (Duo.mk (GetP f r d) W s.heap).exec sched
      (∀ x, e.reader ≠ .stop x) ∧ (∀ x, e.writer ≠ .stop x) ∧ ((GetP f r d).left s.heap ≤ sched.count true → ∃ x, e.reader = .ret x) ∧
      (∀ x, e.reader = .ret x → DMap.IsClosest (storedBy v.2).noRoot ls x) ∧
      ∀ y, e.writer = .ret y → W.run s.heap = .ok (y, e.heap) :=
  obj_duo (domImpl_lawful (V := V) st hf) ops (Nat.lt_succ_self _) hl o sched (fun r => GetP f r d) (fun r => GetP_readOnly f r d)
    (fun l x => DMap.IsClosest (storedBy l).noRoot ls x) fun h r l F hn ⟨h0, n, hr, hN⟩ => by
      refine Prog.wp_conseq (GetP_spec (DLHeap.tall_lt (by omega)) hN hd.holds (by have := hd.holds.count; omega)) ?_
      rintro x h' ⟨_, hx⟩
      obtain ⟨y, h1, h2⟩ := get_of_run h0 hr hd
      rw [hx] at h1; cases h1
      exact h2

/-- C50 (domaintree), the same for the walk of Enumerate. -/
theorem C50_domaintree_enumerate (st : Bool) (ops : List (SOp (Op V))) {f : Nat} (hf : 2 * (ops.length + 1) + 3 ≤ f) (hk : 128 ≤ f)
    (hl : (Book.init : Book (Op V)).LegalAll2 cowOk (inpOk st) ops) (o : Op V) (sched : List Bool) :
    ∃ s, OStore.init.exec (domImpl st f) ops = .ok s ∧ ∀ (i j : Nat) r v q, s.roots[i]? = some r → (Book.init.exec ops).vs[i]? = some v → s.roots[j]? = some q →
      (Book.init.exec ops).Legal2 cowOk (inpOk st) (.cow j o) →
      let W := cowP f o q
      let e := (Duo.mk (EnumerateTreeP f r) W s.heap).exec sched
      (∀ x, e.reader ≠ .stop x) ∧ (∀ x, e.writer ≠ .stop x) ∧ ((EnumerateTreeP f r).left s.heap ≤ sched.count true → ∃ x, e.reader = .ret x) ∧
      (∀ x, e.reader = .ret x → ListsAs x (storedBy v.2)) ∧
      ∀ y, e.writer = .ret y → W.run s.heap = .ok (y, e.heap) :=
  obj_duo (domImpl_lawful (V := V) st hf) ops (Nat.lt_succ_self _) hl o sched (fun r => EnumerateTreeP f r) (fun r => EnumerateTreeP_readOnly f r)
    (fun l x => ListsAs x (storedBy l)) fun h r l F hn ⟨h0, n, hr, hN⟩ => by
      obtain ⟨xs, h1, h2⟩ := lists_of_run h0 hr
      refine Prog.wp_conseq (EnumerateTreeP_spec (DLHeap.tall_lt (by omega)) hk hN h1) ?_
      rintro x h' ⟨_, rfl⟩
      exact h2

/-! ## A concrete history

Trees 2 to 6 are derived from tree 0, tree 1 gets its names in place. -/

/-- Calls used below. -/
def domSample : List (SOp (Op Nat)) :=
  [.fresh, .fresh, .cow 0 (.insert (nm "www.example.com") 1), .cow 2 (.insert (nm "Example.com") 2), .cow 3 (.deleteSub (nm "com")),
   .cow 3 (.delete (nm "WWW.example.com")), .cow 3 (.insert (nm "a.org") 3),
   .inp 1 (.inplace (nm "example.com") 7), .inp 1 (.inplace (nm "a.b.com") 8), .inp 1 (.inplace (nm "com") 9), .inp 1 (.inplace (nm "a.b.com") 6)]

/-- What every held tree lists. -/
def domAnswers (st : Bool) (ops : List (SOp (Op Nat))) : Option (List (Option (List (Bytes × Nat)))) :=
  match OStore.init.exec (domImpl st 128) ops with
  | .ok s => some (s.roots.map fun r => answer (EnumerateTreeP 128 r) s.heap)
  | .error _ => none

example : domAnswers true domSample = some [some [], some [(txt "com", 9), (txt "a.b.com", 6), (txt "example.com", 7)], some [(txt "www.example.com", 1)],
    some [(txt "example.com", 2), (txt "www.example.com", 1)], some [], some [(txt "example.com", 2)],
    some [(txt "example.com", 2), (txt "www.example.com", 1), (txt "a.org", 3)]] := by decide +kernel

/-- The sample meets the hypotheses. -/
theorem domSample_legal : (Book.init : Book (Op Nat)).LegalAll2 cowOk (inpOk true) domSample := by
  refine ⟨trivial, trivial, ?_, ?_, ?_, ?_, ?_, ?_, ?_, ?_, ?_, trivial⟩
  · exact fun _ _ => ⟨⟨txt "www.example.com", by decide +kernel⟩, trivial⟩
  · exact fun _ _ => ⟨⟨txt "Example.com", by decide +kernel⟩, trivial⟩
  · refine fun _ _ => ⟨⟨txt "com", by decide +kernel⟩, fun ls hl h => ?_⟩
    rw [show (nm "com").labels = some [txt "COM"] by decide +kernel] at hl
    cases hl; cases h
  · refine fun _ _ => ⟨⟨txt "WWW.example.com", by decide +kernel⟩, fun ls hl h => ?_⟩
    rw [show (nm "WWW.example.com").labels = some [txt "COM", txt "EXAMPLE", txt "WWW"] by decide +kernel] at hl
    cases hl; cases h
  · exact fun _ _ => ⟨⟨txt "a.org", by decide +kernel⟩, trivial⟩
  all_goals
    intro v hv
    simp [Book.init, Book.step] at hv
    subst hv
    refine ⟨C34_covered_partial _ ?_ _ _ ?_, fun j u hj hu => ?_⟩
    rotate_left
    rotate_left
    · simp [Book.init, Book.step] at hu
      rcases j with _ | _ | _ | _ | _ | _ | _ | j <;> simp at hu <;> simp [← hu] at *
  all_goals first
    | exact ⟨txt "example.com", by decide +kernel⟩
    | exact ⟨txt "a.b.com", by decide +kernel⟩
    | exact ⟨txt "com", by decide +kernel⟩
    | (intro o ho
       simp only [List.mem_cons, List.not_mem_nil, or_false] at ho
       rcases ho with rfl | rfl | rfl <;> refine ⟨?_, trivial⟩)
    | (intro o ho; cases ho)
  all_goals first
    | exact ⟨txt "example.com", by decide +kernel⟩
    | exact ⟨txt "a.b.com", by decide +kernel⟩
    | exact ⟨txt "com", by decide +kernel⟩

/-- Starting from nil trees. -/
example : domAnswers false (domSample.take 7) = some [some [], some [], some [(txt "www.example.com", 1)],
    some [(txt "example.com", 2), (txt "www.example.com", 1)], some [], some [(txt "example.com", 2)],
    some [(txt "example.com", 2), (txt "www.example.com", 1), (txt "a.org", 3)]] := by decide +kernel

/-- In-place calls on a shared tree are not covered, and do change the other tree: tree 1 shares the node of `com` with tree 2. -/
example : domAnswers true [.fresh, .cow 0 (.insert (nm "a.com") 1), .cow 1 (.insert (nm "org") 3), .inp 2 (.inplace (nm "b.com") 2)] =
    some [some [], some [(txt "a.com", 1), (txt "b.com", 2)], some [(txt "a.com", 1), (txt "b.com", 2), (txt "org", 3)]] := by decide +kernel

/-- A call that panics in memory: the node of `com` in tree 1 has no branches.  What was there stays. -/
example : (match OStore.init.exec (domImpl true 128) [.fresh, .cow 0 (.insert (nm "com") 1)] with
    | .ok s => (match s.roots[1]? with
      | some r => (match (callP 128 (.inplace (nm "a.com") 2) r).crash s.heap with
        | some (.panic, h') => answer (EnumerateTreeP 128 r) h' == some [(txt "com", 1)]
        | _ => false)
      | none => false)
    | .error _ => false) = true := by decide +kernel

end Verif.Props
