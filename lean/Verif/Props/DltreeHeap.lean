import Verif.DLHeap.History
import Verif.Heap.Crash

/-!
# Property theorems for dltree on memory (C58, dltree part of C50)

A client history is a list of steps on the list of trees the client holds (`SOp`): start a tree (`NewTree()` if `st`, else a nil
`*Tree`), derive a tree from any held tree by `Insert`, `RawInsert`, `Delete` or `RawDelete`, call `InplaceInsert` or
`RawInplaceInsert` on a held tree, forget a tree.  A held tree is a pointer to its `Tree` object.  In-place calls are legal on a
tree no other held tree shares its origin with.  `f` bounds the number of loop iterations; every bound above the stated one gives
the same results.
-/

namespace Verif.Props
open Verif Verif.Heap Verif.Domain Verif.DL Verif.DLHeap
variable {V : Type} [Inhabited V]

/-- All observations through a tree are those of the labels left by the calls `ks` (newest first). -/
def DLObserves (f : Nat) (h : Heap (LD V)) (r : Ptr) (ks : List (KOp Bytes V)) : Prop :=
  (∀ l, answer (RawGetP lm f r l) h = some (lastWrite' ks l)) ∧
  (∀ s l, Means s l → answer (GetP lm f r s) h = some (lastWrite' ks l)) ∧
  (∃ b, answer (IsEmptyP lm r) h = some b ∧ (b = true ↔ ∀ l, lastWrite' ks l = none)) ∧
  ∃ xs, answer (RawEnumerateP lm f r) h = some xs ∧ (∀ l v, (l, v) ∈ xs ↔ lastWrite' ks l = some v) ∧
    xs.Pairwise (fun a b => a.1.length < b.1.length ∨ (a.1.length = b.1.length ∧ a.1 < b.1)) ∧
    ((∀ l, lastWrite' ks l ≠ none → l.length ≤ 63) → ∃ ys, answer (EnumerateP lm f r) h = some ys ∧
      ys.map (fun p => (some p.1, p.2)) = xs.map fun p => (MakeHumanReadableLabel p.1, p.2))

/-- The same for a chain of calls, by what the calls stand for. -/
def DLShows (f : Nat) (h : Heap (LD V)) (r : Ptr) (l : List (DL.Op V)) : Prop :=
  (∃ ps : List (DL.Op V × KOp Bytes V), ps.map Prod.fst = l ∧ ∀ p ∈ ps, OpMeans p.1 p.2) ∧
  ∀ ps : List (DL.Op V × KOp Bytes V), ps.map Prod.fst = l → (∀ p ∈ ps, OpMeans p.1 p.2) → DLObserves f h r (ps.map Prod.snd)

omit [Inhabited V] in
theorem means_ops {l : List (DL.Op V)} (h : ∀ o ∈ l, ∃ k, OpMeans o k) :
    ∃ ps : List (DL.Op V × KOp Bytes V), ps.map Prod.fst = l ∧ ∀ p ∈ ps, OpMeans p.1 p.2 := by
  induction l with
  | nil => exact ⟨[], rfl, by simp⟩
  | cons o l ih =>
    obtain ⟨ps, h1, h2⟩ := ih fun x hx => h x (by simp [hx])
    obtain ⟨k, hk⟩ := h o (by simp)
    refine ⟨(o, k) :: ps, by simp [h1], ?_⟩
    simp only [List.mem_cons, forall_eq_or_imp]
    exact ⟨hk, h2⟩

omit [Inhabited V] in
theorem dl_start (st : Bool) : DLHeap.start0 (V := V) st = none ∨ DLHeap.start0 (V := V) st = DL.NewTree := by cases st <;> simp [DLHeap.start0]

/-- What the functional tree shows. -/
theorem dl_run_facts {st : Bool} {ps : List (DL.Op V × KOp Bytes V)} (hp : ∀ p ∈ ps, OpMeans p.1 p.2) {t : Option (DL.Tree V)}
    (hr : DL.run (DLHeap.start0 st) (ps.map Prod.fst) = some t) :
    (∀ l, RawGet t l = lastWrite' (ps.map Prod.snd) l) ∧ (∀ l v, (l, v) ∈ RawEnumerate t ↔ lastWrite' (ps.map Prod.snd) l = some v) ∧
    (RawEnumerate t).Pairwise (fun a b => a.1.length < b.1.length ∨ (a.1.length = b.1.length ∧ a.1 < b.1)) ∧
    ((∀ l, lastWrite' (ps.map Prod.snd) l ≠ none → l.length ≤ 63) → ∃ ys, DL.Enumerate t = some ys ∧
      ys.map (fun p => (some p.1, p.2)) = (RawEnumerate t).map fun p => (MakeHumanReadableLabel p.1, p.2)) := by
  obtain ⟨t1, r1, a1, _⟩ := C26_map (dl_start st) ps hp
  rw [hr] at r1; cases r1
  obtain ⟨t1, r1, a2⟩ := C27_complete (dl_start st) ps hp
  rw [hr] at r1; cases r1
  obtain ⟨t1, r1, a3⟩ := C27_raw_sorted (dl_start st) ps hp
  rw [hr] at r1; cases r1
  obtain ⟨t1, r1, a4⟩ := C27_human (dl_start st) ps hp
  rw [hr] at r1; cases r1
  refine ⟨a1, a2, a3, fun hs => ?_⟩
  obtain ⟨ys, b1, b2, b3, _⟩ := a4 fun p hp => hs p.1 (by rw [(a2 p.1 p.2).1 hp]; simp)
  refine ⟨ys, b1, ?_⟩
  have l1 : ys.length = (RawEnumerate t).length := by have := congrArg List.length b2; simpa using this
  apply List.ext_getElem (by simpa using l1)
  intro i h1 h2
  simp only [List.getElem_map, Prod.mk.injEq]
  simp only [List.length_map] at h1 h2
  constructor
  · have := congrArg (fun z => z[i]?) b3
    simpa [h1, h2] using this
  · have := congrArg (fun z => z[i]?) b2
    simpa [h1, h2] using this

theorem dlShows_of_obj {st : Bool} {f : Nat} {h : Heap (LD V)} {r : Ptr} {F : Addr → Prop} {l : List (DL.Op V)} (hf : l.length < f)
    (ho : (dlImpl st f).Obj h r l F) : DLShows f h r l := by
  obtain ⟨h0, A, hL, hr, _⟩ := ho
  refine ⟨means_ops h0, ?_⟩
  rintro ps rfl hp
  obtain ⟨a1, a2, a3, a4⟩ := dl_run_facts hp hr
  have hg : ∀ l, answer (RawGetP lm f r l) h = some (lastWrite' (ps.map Prod.snd) l) := by
    intro l
    rw [answer_of_wp (W := fun _ => False) (RawGetP_spec hL (tall_lt hf) l), ← a1, rawGet_eq, hL.rootOf]
  have he : RawEnumerate (treeOf r A) = RB.enumerate (ATree.erase A) := by rw [RawEnumerate, hL.rootOf]
  refine ⟨hg, fun s l hs => by rw [GetP_eq hs.labelOf]; exact hg l, ⟨_, answer_of_wp (W := fun _ => False) (IsEmptyP_spec hL), ?_⟩,
    _, answer_of_wp (W := fun _ => False) (RawEnumerateP_spec hL (tall_lt hf)), by rw [← he]; exact a2, by rw [← he]; exact a3, fun hs => ?_⟩
  · have := isEmpty_iff hL.ok
    simp only [IsEmpty, hL.rootOf, a1] at this
    exact this
  · obtain ⟨ys, b1, b2⟩ := a4 hs
    rw [DL.Enumerate, hL.rootOf] at b1
    exact ⟨ys, answer_of_wp (W := fun _ => False) (EnumerateP_spec hL (tall_lt hf) b1), by rw [← he]; exact b2⟩

/-- C58: in every legal history no call panics or runs on, and every held tree shows exactly the labels its own chain of calls
left, whatever was derived from it or done to other trees. -/
theorem C58_history (st : Bool) (ops : List (SOp (DL.Op V))) {f : Nat} (hf : 2 * ops.length + 3 ≤ f)
    (hl : (Book.init : Book (DL.Op V)).LegalAll2 dlCow (dlInp st) ops) :
    ∃ s, OStore.init.exec (dlImpl st f) ops = .ok s ∧ s.roots.length = (Book.init.exec ops).vs.length ∧
      ∀ (i : Nat) r v, s.roots[i]? = some r → (Book.init.exec ops).vs[i]? = some v → DLShows f s.heap r v.2 := by
  obtain ⟨s, e, _, h1, h2⟩ := obj_history (dlImpl_lawful (V := V) st hf) ops (Nat.le_refl _) hl
  refine ⟨s, e, h1, fun i r v hr hv => ?_⟩
  obtain ⟨hn, F, ho⟩ := h2 i r v hr hv
  exact dlShows_of_obj (by omega) ho

/-- C58: whatever is derived afterwards by Insert, RawInsert, Delete and RawDelete, from this tree or others, a tree obtained earlier
answers every query exactly as it did when it was obtained. -/
theorem C58_persistence (st : Bool) (pre post : List (SOp (DL.Op V))) {f : Nat} (hf : 2 * (pre.length + post.length) + 3 ≤ f) (hc : CowOnly post)
    (hl : (Book.init : Book (DL.Op V)).LegalAll2 dlCow (dlInp st) pre) (hl2 : (Book.init.exec pre).LegalAll2 dlCow (dlInp st) post) :
    ∃ s s', OStore.init.exec (dlImpl st f) pre = .ok s ∧ s.exec (dlImpl st f) post = .ok s' ∧
      ∀ (i : Nat) r, s.roots[i]? = some r → s'.roots[i]? = some r ∧
        (∀ l, answer (RawGetP lm f r l) s'.heap = answer (RawGetP lm f r l) s.heap ∧ answer (RawGetP lm f r l) s.heap ≠ none) ∧
        (∀ s0 l, Means s0 l → answer (GetP lm f r s0) s'.heap = answer (GetP lm f r s0) s.heap ∧ answer (GetP lm f r s0) s.heap ≠ none) ∧
        (answer (IsEmptyP lm r) s'.heap = answer (IsEmptyP lm r) s.heap ∧ answer (IsEmptyP lm r) s.heap ≠ none) ∧
        answer (RawEnumerateP lm f r) s'.heap = answer (RawEnumerateP lm f r) s.heap ∧ answer (RawEnumerateP lm f r) s.heap ≠ none := by
  obtain ⟨s, s', e1, e2, h⟩ := obj_persist (dlImpl_lawful (V := V) st hf) pre post (Nat.le_refl _) hc hl hl2
  refine ⟨s, s', e1, e2, fun i r hr => ?_⟩
  obtain ⟨h1, l, F, F', ⟨n0, A, hL, ht, _⟩, ⟨_, A', hL', ht', _⟩, hn⟩ := h i r hr
  have hm : l.length < f := by omega
  rw [ht] at ht'
  have eA : ATree.erase A' = ATree.erase A := by
    have := congrArg (fun z => DL.rootOf (z.getD none)) ht'
    simp only [Option.getD_some, hL.rootOf, hL'.rootOf] at this
    exact this.symm
  have g : ∀ l, answer (RawGetP lm f r l) s'.heap = answer (RawGetP lm f r l) s.heap ∧ answer (RawGetP lm f r l) s.heap ≠ none := fun l => by
    rw [answer_of_wp (W := fun _ => False) (RawGetP_spec hL (tall_lt hm) l), answer_of_wp (W := fun _ => False) (RawGetP_spec hL' (tall_lt hm) l), eA]; simp
  refine ⟨h1, g, fun s0 l hs => by rw [GetP_eq hs.labelOf]; exact g l, ?_, ?_⟩
  · rw [answer_of_wp (W := fun _ => False) (IsEmptyP_spec hL), answer_of_wp (W := fun _ => False) (IsEmptyP_spec hL'), eA]; simp
  · rw [answer_of_wp (W := fun _ => False) (RawEnumerateP_spec hL (tall_lt hm)), answer_of_wp (W := fun _ => False) (RawEnumerateP_spec hL' (tall_lt hm)), eA]; simp

/-- C58: Insert, RawInsert, Delete and RawDelete write no existing cell, hence neither the tree they are called on nor any other. -/
theorem C58_no_write (st : Bool) (ops : List (SOp (DL.Op V))) {f : Nat} (hf : 2 * (ops.length + 1) + 3 ≤ f)
    (hl : (Book.init : Book (DL.Op V)).LegalAll2 dlCow (dlInp st) ops) (o : DL.Op V) (k : KOp Bytes V) (ho : OpMeans o k) :
    ∃ s, OStore.init.exec (dlImpl st f) ops = .ok s ∧ ∀ (i : Nat) r, s.roots[i]? = some r →
      ∃ r' h', (cowP f o r).run s.heap = .ok (r', h') ∧ ∀ a, a < s.heap.next → h'.mem a = s.heap.mem a := by
  obtain ⟨s, e, hk, h1, h2⟩ := obj_history (dlImpl_lawful (V := V) st (n := ops.length) (f := f) (by omega)) ops (Nat.le_refl _) hl
  refine ⟨s, e, fun i r hr => ?_⟩
  obtain ⟨hi, -⟩ := List.getElem?_eq_some_iff.1 hr
  obtain ⟨v, hv⟩ : ∃ v, (Book.init.exec ops).vs[i]? = some v := ⟨_, List.getElem?_eq_getElem (by omega)⟩
  obtain ⟨hvn, F, hO⟩ := h2 i r v hr hv
  have := (dlImpl_lawful (V := V) st hf).cow_ok v.2 o r s.heap F (by omega) ⟨k, ho⟩ hO
  obtain ⟨r', h', q, ⟨_, _, w⟩, _⟩ := Prog.wp_run (Prog.wp_frame this)
  exact ⟨r', h', q, fun a ha => w a ha (by omega)⟩

/-- The in-place calls. -/
def dlInplace (f : Nat) : DL.Op V → Ptr → Prog (LD V) Unit
  | .insert k v, r => InplaceInsertP lm f r k v
  | .rawInsert k v, r => RawInplaceInsertP lm f r k v
  | _, _ => .stop .panic

/-- C58: after any legal history, InplaceInsert (RawInplaceInsert) on an exclusively held tree leaves in the tree what the tree
returned by Insert (RawInsert) shows, and every other held tree shows what it showed before. -/
theorem C58_inplace (st : Bool) (ops : List (SOp (DL.Op V))) {f : Nat} (hf : 2 * (ops.length + 1) + 3 ≤ f)
    (hl : (Book.init : Book (DL.Op V)).LegalAll2 dlCow (dlInp st) ops) (i : Nat) (o : DL.Op V)
    (hi : ((Book.init : Book (DL.Op V)).exec ops).Legal2 dlCow (dlInp st) (.inp i o)) :
    ∃ s, OStore.init.exec (dlImpl st f) ops = .ok s ∧ ∀ r v, s.roots[i]? = some r → (Book.init.exec ops).vs[i]? = some v →
      (∃ h', (dlInplace f o r).run s.heap = .ok ((), h') ∧ DLShows f h' r (o :: v.2) ∧
        ∀ (j : Nat) q u, j ≠ i → s.roots[j]? = some q → (Book.init.exec ops).vs[j]? = some u → DLShows f h' q u.2) ∧
      ∃ r' h', (cowP f o r).run s.heap = .ok (r', h') ∧ DLShows f h' r' (o :: v.2) ∧
        ∀ a, a < s.heap.next → h'.mem a = s.heap.mem a := by
  obtain ⟨s, e, h⟩ := obj_inplace (dlImpl_lawful (V := V) st hf) ops (Nat.lt_succ_self _) hl i o o
    (fun v hv => (hi v hv).1.1) hi
  refine ⟨s, e, fun r v hr hv => ?_⟩
  obtain ⟨hvn, ⟨r', h', F, F', _, r1, rO, r3, _⟩, ⟨q', k', G', q1, qO, q3⟩⟩ := h r v hr hv
  refine ⟨?_, q', k', q1, dlShows_of_obj (by simp; omega) qO, q3⟩
  have r1 : ((do dlInplace f o r; pure r) : Prog (LD V) Ptr).run s.heap = .ok (r', h') := by
    cases o with
    | insert k v => exact r1
    | rawInsert k v => exact r1
    | delete k => exact ((hi v hv).1.2.1).elim
    | rawDelete k => exact ((hi v hv).1.2.1).elim
  rw [Prog.run_bind] at r1
  cases e1 : (dlInplace f o r).run s.heap with
  | error er => rw [e1] at r1; cases r1
  | ok z =>
    rw [e1] at r1
    cases r1
    refine ⟨_, rfl, ?_, fun j q u hj hq hu => ?_⟩
    · exact dlShows_of_obj (by simp; omega) rO
    · obtain ⟨hn, F, hO⟩ := r3 j q u hj hq hu
      exact dlShows_of_obj (by omega) hO

/-- C58: on a nil `*Tree` the in-place calls panic before any memory is touched. -/
theorem C58_nil_panics (f : Nat) (o : DL.Op V) (h : Heap (LD V)) : (dlInplace f o none).crash h = some (.panic, h) := by
  cases o with
  | insert k v =>
    simp only [dlInplace, InplaceInsertP, labelP]
    cases DL.labelOf k <;> rfl
  | rawInsert k v => rfl
  | delete k => rfl
  | rawDelete k => rfl

/-- C50 (dltree): after any legal history, for every schedule of the memory accesses of a Get on a held tree with those of an
Insert, RawInsert, Delete or RawDelete deriving a new tree from a held tree, the reader never fails, ends once it has had enough
turns, and answers as the old tree does; the writer's result is the one of a run alone. -/
theorem C50_dltree_get (st : Bool) (ops : List (SOp (DL.Op V))) {f : Nat} (hf : 2 * (ops.length + 1) + 3 ≤ f)
    (hl : (Book.init : Book (DL.Op V)).LegalAll2 dlCow (dlInp st) ops) (o : DL.Op V) {s0 lb : Bytes} (hd : Means s0 lb) (sched : List Bool) :
    ∃ s, OStore.init.exec (dlImpl st f) ops = .ok s ∧ ∀ (i j : Nat) r v q, s.roots[i]? = some r → (Book.init.exec ops).vs[i]? = some v → s.roots[j]? = some q →
      (Book.init.exec ops).Legal2 dlCow (dlInp st) (.cow j o) →
      let W := cowP f o q
      let e := (Duo.mk (GetP lm f r s0) W s.heap).exec sched
      (∀ x, e.reader ≠ .stop x) ∧ (∀ x, e.writer ≠ .stop x) ∧ ((GetP lm f r s0).left s.heap ≤ sched.count true → ∃ x, e.reader = .ret x) ∧
      (∀ x, e.reader = .ret x → ∀ ps : List (DL.Op V × KOp Bytes V), ps.map Prod.fst = v.2 → (∀ p ∈ ps, OpMeans p.1 p.2) → x = lastWrite' (ps.map Prod.snd) lb) ∧
      ∀ y, e.writer = .ret y → W.run s.heap = .ok (y, e.heap) :=
  obj_duo (dlImpl_lawful (V := V) st hf) ops (Nat.lt_succ_self _) hl o sched (fun r => GetP lm f r s0) (fun r => GetP_readOnly f r s0)
    (fun l x => ∀ ps : List (DL.Op V × KOp Bytes V), ps.map Prod.fst = l → (∀ p ∈ ps, OpMeans p.1 p.2) → x = lastWrite' (ps.map Prod.snd) lb)
    fun h r l F hn ⟨h0, A, hL, hr, _⟩ => by
      simp only [GetP_eq hd.labelOf]
      refine Prog.wp_conseq (RawGetP_spec hL (tall_lt (by omega)) lb) ?_
      rintro x h' ⟨_, rfl⟩ ps rfl hp
      rw [← (dl_run_facts hp hr).1, rawGet_eq, hL.rootOf]

/-- C50 (dltree), the same for the walk of RawEnumerate. -/
theorem C50_dltree_enumerate (st : Bool) (ops : List (SOp (DL.Op V))) {f : Nat} (hf : 2 * (ops.length + 1) + 3 ≤ f)
    (hl : (Book.init : Book (DL.Op V)).LegalAll2 dlCow (dlInp st) ops) (o : DL.Op V) (sched : List Bool) :
    ∃ s, OStore.init.exec (dlImpl st f) ops = .ok s ∧ ∀ (i j : Nat) r v q, s.roots[i]? = some r → (Book.init.exec ops).vs[i]? = some v → s.roots[j]? = some q →
      (Book.init.exec ops).Legal2 dlCow (dlInp st) (.cow j o) →
      let W := cowP f o q
      let e := (Duo.mk (RawEnumerateP lm f r) W s.heap).exec sched
      (∀ x, e.reader ≠ .stop x) ∧ (∀ x, e.writer ≠ .stop x) ∧ ((RawEnumerateP lm f r).left s.heap ≤ sched.count true → ∃ x, e.reader = .ret x) ∧
      (∀ x, e.reader = .ret x → ∀ ps : List (DL.Op V × KOp Bytes V), ps.map Prod.fst = v.2 → (∀ p ∈ ps, OpMeans p.1 p.2) →
        (∀ l w, (l, w) ∈ x ↔ lastWrite' (ps.map Prod.snd) l = some w) ∧
        x.Pairwise (fun a b => a.1.length < b.1.length ∨ (a.1.length = b.1.length ∧ a.1 < b.1))) ∧
      ∀ y, e.writer = .ret y → W.run s.heap = .ok (y, e.heap) :=
  obj_duo (dlImpl_lawful (V := V) st hf) ops (Nat.lt_succ_self _) hl o sched (fun r => RawEnumerateP lm f r) (fun r => RawEnumerateP_readOnly f r)
    (fun l x => ∀ ps : List (DL.Op V × KOp Bytes V), ps.map Prod.fst = l → (∀ p ∈ ps, OpMeans p.1 p.2) →
        (∀ l w, (l, w) ∈ x ↔ lastWrite' (ps.map Prod.snd) l = some w) ∧
        x.Pairwise (fun a b => a.1.length < b.1.length ∨ (a.1.length = b.1.length ∧ a.1 < b.1)))
    fun h r l F hn ⟨h0, A, hL, hr, _⟩ => by
      refine Prog.wp_conseq (RawEnumerateP_spec hL (tall_lt (by omega))) ?_
      rintro x h' ⟨_, rfl⟩ ps rfl hp
      obtain ⟨_, a2, a3, _⟩ := dl_run_facts hp hr
      rw [RawEnumerate, hL.rootOf] at a2 a3
      exact ⟨a2, a3⟩

/-! ## A concrete history

Trees 2 to 5 are derived from tree 0, tree 1 gets its labels in place. -/

/-- Calls used below. -/
def dlSample : List (SOp (DL.Op Nat)) :=
  [.fresh, .fresh, .cow 0 (.insert [97] 1), .cow 2 (.insert [98] 2), .cow 3 (.rawInsert [65, 46] 3), .cow 4 (.delete [65]),
   .inp 1 (.insert [99, 46] 7), .inp 1 (.rawInsert [67] 8), .inp 1 (.rawInsert [66] 9), .inp 1 (.insert [97] 6)]

/-- What every held tree lists. -/
def dlAnswers (st : Bool) (ops : List (SOp (DL.Op Nat))) : Option (List (Option (List (Bytes × Nat)))) :=
  match OStore.init.exec (dlImpl st 30) ops with
  | .ok s => some (s.roots.map fun r => answer (RawEnumerateP lm 30 r) s.heap)
  | .error _ => none

example : dlAnswers true dlSample = some [some [], some [([65], 6), ([66], 9), ([67], 8)], some [([65], 1)], some [([65], 1), ([66], 2)],
    some [([65], 1), ([66], 2), ([65, 46], 3)], some [([66], 2), ([65, 46], 3)]] := by decide +kernel

theorem means_plain {a : UInt8} {dot : Bool} (h : (DomainText.Tok.plain a).Valid) :
    Means ([a] ++ if dot then [46] else []) (DomainText.labelBytes [.plain a]) :=
  ⟨[.plain a], dot, by simpa using h, by simp, rfl, rfl⟩

/-- The sample meets the hypotheses. -/
theorem dlSample_legal : (Book.init : Book (DL.Op Nat)).LegalAll2 dlCow (dlInp true) dlSample := by
  refine ⟨trivial, trivial, ?_, ?_, ?_, ?_, ?_, ?_, ?_, ?_, trivial⟩
  · exact fun _ _ => ⟨_, .insert (means_plain (a := 97) (dot := false) (by decide))⟩
  · exact fun _ _ => ⟨_, .insert (means_plain (a := 98) (dot := false) (by decide))⟩
  · exact fun _ _ => ⟨_, .rawInsert⟩
  · exact fun _ _ => ⟨_, .delete (means_plain (a := 65) (dot := false) (by decide))⟩
  all_goals
    intro v hv
    simp [Book.init, Book.step] at hv
    subst hv
    refine ⟨⟨?_, trivial, .inl rfl⟩, fun j u hj hu => ?_⟩
    rotate_left
    · simp [Book.init, Book.step] at hu
      rcases j with _ | _ | _ | _ | _ | _ | j <;> simp at hu <;> simp [← hu] at *
  · exact ⟨_, .insert (means_plain (a := 99) (dot := true) (by decide))⟩
  · exact ⟨_, .rawInsert⟩
  · exact ⟨_, .rawInsert⟩
  · exact ⟨_, .insert (means_plain (a := 97) (dot := false) (by decide))⟩

/-- Starting from nil trees. -/
example : dlAnswers false (dlSample.take 6) = some [some [], some [], some [([65], 1)], some [([65], 1), ([66], 2)],
    some [([65], 1), ([66], 2), ([65, 46], 3)], some [([66], 2), ([65, 46], 3)]] := by decide +kernel

/-- In-place calls on a shared tree are not covered, and do change the other tree: trees 4 and 5 share the node of `a`. -/
example : (dlAnswers true [.fresh, .cow 0 (.insert [98] 2), .cow 1 (.insert [97] 1), .cow 2 (.insert [99] 3), .cow 3 (.insert [100] 4),
      .cow 4 (.insert [101] 5), .inp 5 (.insert [97] 9)]).map (fun x => x.drop 4) =
    some [some [([65], 9), ([66], 2), ([67], 3), ([68], 4)], some [([65], 9), ([66], 2), ([67], 3), ([68], 4), ([69], 5)]] := by decide +kernel

end Verif.Props
