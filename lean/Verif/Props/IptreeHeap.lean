import Verif.IPHeap.History
import Verif.Props.Iptree

/-!
# Property theorems for iptree on memory (C42, C45, rest of C44, iptree part of C50)

A client history is a list of steps on the list of trees the client holds (`SOp`): start a tree (`NewTree()` if `st`, else a nil
`*Tree`), derive a tree from any held tree by `InsertNet`, `InsertIP`, `DeleteByNet` or `DeleteByIP`, call `InplaceInsertNet` or
`InplaceInsertIP` on a held tree, forget a tree.  A held tree is a pointer to its `Tree` struct.
`Book.init.exec ops` is the client's own record: for every held tree the starting tree it comes from and the calls that made
it (newest first).  In-place calls are legal on a tree no other held tree shares its origin with.  Every bound `f ≥ 66` on the
number of loop iterations in numtree gives the same results.
-/

namespace Verif.Props
open Verif Verif.Heap Verif.IP Verif.IPHeap
variable {V : Type} [Inhabited V]

/-- All observations through a tree are those of the networks left by the calls `ops`. -/
def NetObserves (f : Nat) (h : Heap (IPD V)) (r : Ptr) (ops : List (Op V)) : Prop :=
  (∃ ps : List (Op V × Option (Fam × POp V)), ps.map Prod.fst = ops ∧ ∀ p ∈ ps, OpNet p.1 p.2) ∧
  ∀ ps : List (Op V × Option (Fam × POp V)), ps.map Prod.fst = ops → (∀ p ∈ ps, OpNet p.1 p.2) →
    (∀ n g p, IsNet n g p → ∃ x, answer (GetByNetP f r (some n)) h = some (x.map .user) ∧ PMap.IsLongestMatch (lastNet (ps.filterMap Prod.snd) g) p x) ∧
    (∀ n, (∀ g p, ¬ IsNet n g p) → answer (GetByNetP f r (some n)) h = some none) ∧ answer (GetByNetP f r none) h = some none ∧
    ∃ l : List (IPNet × V), answer (EnumerateTreeP f r) h = some (l.map fun p => (p.1, .user p.2)) ∧ (l.Pairwise fun a b => NetBefore a.1 b.1) ∧
      (∀ x ∈ l, ∃ g p, IsCanonNet x.1 g p ∧ lastNet (ps.filterMap Prod.snd) g p = some x.2) ∧
      ∀ g p v, lastNet (ps.filterMap Prod.snd) g p = some v → ∃ x ∈ l, IsCanonNet x.1 g p ∧ x.2 = v

omit [Inhabited V] in
theorem get_answer {f : Nat} (hf : 66 ≤ f) {h : Heap (IPD V)} {r : Ptr} {t : Option (Tree V)} {F : Addr → Prop} (hT : TRep h r t F)
    {n : Option IPNet} {x : Option V} (hx : GetByNet t n = x.map .user) : answer (GetByNetP f r n) h = some (x.map .user) := by
  refine answer_of_wp (W := fun _ => False) (Prog.wp_conseq (GetByNetP_spec hf hT n) ?_)
  rintro _ h' ⟨e, y, rfl, hy⟩
  refine ⟨e, ?_⟩
  rw [hx] at hy
  cases x with
  | none => cases y with
    | none => rfl
    | some y => simp at hy
  | some x => cases y with
    | none => simp at hy
    | some y => cases y with
      | user u => simp [toTV] at hy; subst hy; rfl
      | sub B => simp [toTV] at hy

theorem netObserves_of_rep {st : Bool} {f : Nat} (hf : 66 ≤ f) {h : Heap (IPD V)} {r : Ptr} {t : Option (Tree V)} {F : Addr → Prop} (hT : TRep h r t F)
    {ops : List (Op V)} (hr : IP.run (start0 st) ops = some t) : NetObserves f h r ops := by
  constructor
  · clear hr
    induction ops with
    | nil => exact ⟨[], rfl, by simp⟩
    | cons op ops ih =>
      obtain ⟨ps, h1, h2⟩ := ih
      obtain ⟨o, ho⟩ := OpNet.total op
      refine ⟨(op, o) :: ps, by simp [h1], ?_⟩
      simp only [List.mem_cons, forall_eq_or_imp]
      exact ⟨ho, h2⟩
  · rintro ps rfl hps
    obtain ⟨t1, a1, a2, a3⟩ := C39_enumerate_sound (start0_empty st) ps hps
    rw [hr] at a1; cases a1
    obtain ⟨t1, b1, b2⟩ := C39_enumerate_sorted (start0_empty st) ps hps
    rw [hr] at b1; cases b1
    refine ⟨fun n g p hn => ?_, fun n hn => ?_, ?_, IP.Enumerate t, answer_of_wp (W := fun _ => False) (EnumerateTreeP_spec hf hT), b2, a2, a3⟩
    · obtain ⟨t1, x, c1, c2, c3⟩ := C37_longest_match (start0_empty st) ps hps hn
      rw [hr] at c1; cases c1
      exact ⟨x, get_answer hf hT c2, c3⟩
    · exact get_answer (x := none) hf hT (getByNet_bad hn)
    · exact get_answer (x := none) hf hT (by cases t <;> rfl)

/-- C45, C44: in every legal history no call panics or runs on (the "invalid IPv6 tree" panics of InsertNet, InplaceInsertNet
and DeleteByNet included), and every held tree shows exactly the networks its own chain of calls left, whatever was
derived from it or done to other trees. -/
theorem C45_history (st : Bool) {f : Nat} (hf : 66 ≤ f) (ops : List (SOp (Op V)))
    (hl : (Book.init : Book (Op V)).LegalAll2 (fun _ _ => True) (ipImpl st f).inpOk ops) :
    ∃ s, OStore.init.exec (ipImpl st f) ops = .ok s ∧ s.roots.length = (Book.init.exec ops).vs.length ∧
      ∀ (i : Nat) r v, s.roots[i]? = some r → (Book.init.exec ops).vs[i]? = some v → NetObserves f s.heap r v.2 := by
  obtain ⟨s, e, _, h1, h2⟩ := obj_history (ipImpl_lawful (V := V) st hf ops.length) ops (Nat.le_refl _) hl
  refine ⟨s, e, h1, fun i r v hr hv => ?_⟩
  obtain ⟨_, F, t, ht, hT⟩ := h2 i r v hr hv
  exact netObserves_of_rep hf hT ht

/-- C44: after any legal history of copy-on-write and in-place calls, one more InsertNet, DeleteByNet or (on an exclusively held
tree) InplaceInsertNet ends without panic. -/
theorem C44_no_panic_memory (st : Bool) {f : Nat} (hf : 66 ≤ f) (ops : List (SOp (Op V)))
    (hl : (Book.init : Book (Op V)).LegalAll2 (fun _ _ => True) (ipImpl st f).inpOk ops) :
    ∃ s, OStore.init.exec (ipImpl st f) ops = .ok s ∧ ∀ (i : Nat) r, s.roots[i]? = some r →
      (∀ n v, ∃ r' h', (InsertNetP f r n v).run s.heap = .ok (r', h')) ∧ (∀ n, ∃ r' b h', (DeleteByNetP f r n).run s.heap = .ok ((r', b), h')) ∧
      (st = true → ∀ n v, ∃ h', (InplaceInsertNetP f r n v).run s.heap = .ok ((), h')) := by
  obtain ⟨s, e, _, h1, h2⟩ := obj_history (ipImpl_lawful (V := V) st hf ops.length) ops (Nat.le_refl _) hl
  refine ⟨s, e, fun i r hr => ?_⟩
  have hil : i < (Book.init.exec ops).vs.length := by rw [← h1]; exact (List.getElem?_eq_some_iff.mp hr).1
  obtain ⟨_, F, t, ht, hT⟩ := h2 i r _ hr (List.getElem?_eq_getElem hil)
  refine ⟨fun n v => ?_, fun n => ?_, fun hst n v => ?_⟩
  · obtain ⟨t', h3⟩ := run_total (V := V) st (.insertNet n v :: ((Book.init.exec ops).vs[i]).2)
    have h3 : InsertNet t n v = some t' := by simpa [IP.run, ht, IP.step] using h3
    obtain ⟨r', h', q, _⟩ := Prog.wp_run (InsertNetP_spec hf hT h3)
    exact ⟨r', h', q⟩
  · obtain ⟨t', h3⟩ := run_total (V := V) st (.deleteByNet n :: ((Book.init.exec ops).vs[i]).2)
    have h3 : ∃ b, DeleteByNet t n = some (t', b) := by simpa [IP.run, ht, IP.step] using h3
    obtain ⟨b, h3⟩ := h3
    obtain ⟨⟨r', b'⟩, h', q, _⟩ := Prog.wp_run (DeleteByNetP_spec hf hT h3)
    exact ⟨r', b', h', q⟩
  · subst hst
    obtain ⟨t', h3⟩ := run_total (V := V) true (.insertNet n v :: ((Book.init.exec ops).vs[i]).2)
    have h3 : InsertNet t n v = some t' := by simpa [IP.run, ht, IP.step] using h3
    have := run_isSome ht
    cases t with
    | none => simp at this
    | some t =>
      have ⟨a, _, _, ha, _⟩ := hT
      subst ha
      obtain ⟨_, h', q, _⟩ := Prog.wp_run (InplaceInsertNetP_spec hf hT h3)
      exact ⟨h', q⟩

/-- C45: whatever is derived afterwards by InsertNet and DeleteByNet, from this tree or others, a tree obtained earlier answers
every query exactly as it did when it was obtained. -/
theorem C45_persistence (st : Bool) {f : Nat} (hf : 66 ≤ f) (pre post : List (SOp (Op V))) (hc : CowOnly post)
    (hl : (Book.init : Book (Op V)).LegalAll2 (fun _ _ => True) (ipImpl st f).inpOk pre) :
    ∃ s s', OStore.init.exec (ipImpl st f) pre = .ok s ∧ s.exec (ipImpl st f) post = .ok s' ∧
      ∀ (i : Nat) r, s.roots[i]? = some r → s'.roots[i]? = some r ∧
        (∀ n, answer (GetByNetP f r n) s'.heap = answer (GetByNetP f r n) s.heap ∧ answer (GetByNetP f r n) s.heap ≠ none) ∧
        answer (EnumerateTreeP f r) s'.heap = answer (EnumerateTreeP f r) s.heap ∧ answer (EnumerateTreeP f r) s.heap ≠ none := by
  obtain ⟨s, s', e1, e2, h⟩ := obj_persist (ipImpl_lawful (V := V) st hf (pre.length + post.length)) pre post (Nat.le_refl _) hc hl (legalAll2_cowOnly (fun _ _ => trivial) hc _)
  refine ⟨s, s', e1, e2, fun i r hr => ?_⟩
  obtain ⟨h1, l, F, F', ⟨t, ht, hT⟩, ⟨t', ht', hT'⟩, _⟩ := h i r hr
  rw [ht] at ht'; cases ht'
  refine ⟨h1, fun n => ?_, ?_⟩
  · have ob := (netObserves_of_rep hf hT ht)
    have : ∃ x : Option V, GetByNet t n = x.map .user := by
      obtain ⟨ps, p1, p2⟩ := ob.1
      cases n with
      | none => exact ⟨none, by cases t <;> rfl⟩
      | some n =>
        by_cases hn : ∃ g p, IsNet n g p
        · obtain ⟨g, p, hn⟩ := hn
          obtain ⟨t1, x, c1, c2, _⟩ := C37_longest_match (start0_empty st) ps p2 hn
          rw [p1, ht] at c1; cases c1
          exact ⟨x, c2⟩
        · exact ⟨none, getByNet_bad fun g p q => hn ⟨g, p, q⟩⟩
    obtain ⟨x, hx⟩ := this
    rw [get_answer hf hT hx, get_answer hf hT' hx]; simp
  · rw [answer_of_wp (W := fun _ => False) (EnumerateTreeP_spec hf hT), answer_of_wp (W := fun _ => False) (EnumerateTreeP_spec hf hT')]; simp

/-- C42: after any legal history, InplaceInsertNet on an exclusively held tree does not panic, leaves in the tree what the tree
returned by InsertNet shows, and every other held tree shows what it showed before; InsertNet writes no existing cell. -/
theorem C42_inplace {f : Nat} (hf : 66 ≤ f) (ops : List (SOp (Op V)))
    (hl : (Book.init : Book (Op V)).LegalAll2 (fun _ _ => True) (ipImpl true f).inpOk ops) (i : Nat) (n : Option IPNet) (x : V)
    (hi : ((Book.init : Book (Op V)).exec ops).Legal2 (fun _ _ => True) (ipImpl true f).inpOk (.inp i (.insertNet n x))) :
    ∃ s, OStore.init.exec (ipImpl true f) ops = .ok s ∧ ∀ r v, s.roots[i]? = some r → (Book.init.exec ops).vs[i]? = some v →
      (∃ h', (InplaceInsertNetP f r n x).run s.heap = .ok ((), h') ∧ NetObserves f h' r (.insertNet n x :: v.2) ∧
        ∀ (j : Nat) q u, j ≠ i → s.roots[j]? = some q → (Book.init.exec ops).vs[j]? = some u → NetObserves f h' q u.2) ∧
      ∃ r' h', (InsertNetP f r n x).run s.heap = .ok (r', h') ∧ NetObserves f h' r' (.insertNet n x :: v.2) ∧
        ∀ a, a < s.heap.next → h'.mem a = s.heap.mem a := by
  obtain ⟨s, e, h⟩ := obj_inplace (ipImpl_lawful (V := V) true hf (ops.length + 1)) ops (Nat.lt_succ_self _) hl i (.insertNet n x) (.insertNet n x) (fun _ _ => trivial) hi
  refine ⟨s, e, fun r v hr hv => ?_⟩
  obtain ⟨_, ⟨r', h', F, F', _, r1, ⟨t, rt, rT⟩, r3, _⟩, ⟨q', k', G', q1, ⟨u, qt, qT⟩, q3⟩⟩ := h r v hr hv
  refine ⟨?_, q', k', q1, netObserves_of_rep hf qT qt, q3⟩
  have r1 : ((do InplaceInsertNetP f r n x; pure r) : Prog (IPD V) Ptr).run s.heap = .ok (r', h') := r1
  rw [Prog.run_bind] at r1
  cases e1 : (InplaceInsertNetP f r n x).run s.heap with
  | error er => rw [e1] at r1; cases r1
  | ok z =>
    rw [e1] at r1
    cases r1
    refine ⟨_, rfl, netObserves_of_rep hf rT rt, fun j q u hj hq hu => ?_⟩
    obtain ⟨_, F, t, ht, hT⟩ := r3 j q u hj hq hu
    exact netObserves_of_rep hf hT ht

/-- Every copy-on-write call is covered. -/
theorem duo_ok (st : Bool) {f : Nat} (hf : 66 ≤ f) (ops : List (SOp (Op V))) (hl : (Book.init : Book (Op V)).LegalAll2 (fun _ _ => True) (ipImpl st f).inpOk ops) (o : Op V)
    (sched : List Bool) {α : Type} (Rd : Ptr → Prog (IPD V) α) (ro : ∀ r, (Rd r).ReadOnly) (P : List (Op V) → α → Prop)
    (hR : ∀ h r l F, l.length ≤ ops.length + 1 → (ipImpl st f).Obj h r l F → Prog.wp (fun _ => False) (Rd r) (fun x _ => P l x) h) :
    ∃ s, OStore.init.exec (ipImpl st f) ops = .ok s ∧ ∀ (i j : Nat) r v q, s.roots[i]? = some r → (Book.init.exec ops).vs[i]? = some v → s.roots[j]? = some q →
      let W := cowP f o q
      let e := (Duo.mk (Rd r) W s.heap).exec sched
      (∀ x, e.reader ≠ .stop x) ∧ (∀ x, e.writer ≠ .stop x) ∧ ((Rd r).left s.heap ≤ sched.count true → ∃ x, e.reader = .ret x) ∧
      (∀ x, e.reader = .ret x → P v.2 x) ∧ ∀ y, e.writer = .ret y → W.run s.heap = .ok (y, e.heap) := by
  obtain ⟨s, e, h⟩ := obj_duo (ipImpl_lawful (V := V) st hf (ops.length + 1)) ops (Nat.lt_succ_self _) hl o sched Rd ro P hR
  exact ⟨s, e, fun i j r v q hr hv hq => h i j r v q hr hv hq fun _ _ => trivial⟩

/-- C50 (iptree): after any legal history, for every schedule of the memory accesses of a GetByNet on a held tree with those of
an InsertNet or DeleteByNet deriving a new tree from a held tree, the reader never fails, ends once it has had enough turns, and
answers as the old tree does; the writer's result is the one of a run alone. -/
theorem C50_iptree_get (st : Bool) {f : Nat} (hf : 66 ≤ f) (ops : List (SOp (Op V)))
    (hl : (Book.init : Book (Op V)).LegalAll2 (fun _ _ => True) (ipImpl st f).inpOk ops) (o : Op V) {n : IPNet} {g : Fam} {p : List Bool} (hn : IsNet n g p) (sched : List Bool) :
    ∃ s, OStore.init.exec (ipImpl st f) ops = .ok s ∧ ∀ (i j : Nat) r v q, s.roots[i]? = some r → (Book.init.exec ops).vs[i]? = some v → s.roots[j]? = some q →
      let W := cowP f o q
      let e := (Duo.mk (GetByNetP f r (some n)) W s.heap).exec sched
      (∀ x, e.reader ≠ .stop x) ∧ (∀ x, e.writer ≠ .stop x) ∧ ((GetByNetP f r (some n)).left s.heap ≤ sched.count true → ∃ x, e.reader = .ret x) ∧
      (∀ x, e.reader = .ret x → ∃ y, x = y.map HV.user ∧ ∀ ps : List (Op V × Option (Fam × POp V)), ps.map Prod.fst = v.2 → (∀ p ∈ ps, OpNet p.1 p.2) →
        PMap.IsLongestMatch (lastNet (ps.filterMap Prod.snd) g) p y) ∧
      ∀ y, e.writer = .ret y → W.run s.heap = .ok (y, e.heap) :=
  duo_ok st hf ops hl o sched (fun r => GetByNetP f r (some n)) (fun r => GetByNetP_readOnly f r _)
    (fun l x => ∃ y, x = y.map HV.user ∧ ∀ ps : List (Op V × Option (Fam × POp V)), ps.map Prod.fst = l → (∀ p ∈ ps, OpNet p.1 p.2) →
        PMap.IsLongestMatch (lastNet (ps.filterMap Prod.snd) g) p y) fun h r l F _ ⟨t, ht, hT⟩ => by
      have ob := netObserves_of_rep hf hT ht
      refine Prog.wp_conseq (GetByNetP_spec hf hT (some n)) ?_
      rintro _ h' ⟨e, y, rfl, hy⟩
      obtain ⟨ps, p1, p2⟩ := ob.1
      obtain ⟨t1, x, c1, c2, _⟩ := C37_longest_match (start0_empty st) ps p2 hn
      rw [p1, ht] at c1; cases c1
      refine ⟨x, ?_, fun ps p1 p2 => ?_⟩
      · rw [c2] at hy
        cases x with
        | none => cases y with
          | none => rfl
          | some y => simp at hy
        | some x => cases y with
          | none => simp at hy
          | some y => cases y with
            | user u => simp [toTV] at hy; subst hy; rfl
            | sub B => simp [toTV] at hy
      · obtain ⟨t1, x', c1, c2', c3⟩ := C37_longest_match (start0_empty st) ps p2 hn
        rw [p1, ht] at c1; cases c1
        have : x = x' := by
          rw [c2] at c2'
          cases x <;> cases x' <;> simp at c2' ⊢; exact c2'
        rw [this]; exact c3

/-- C50 (iptree), the same for the walk of Enumerate. -/
theorem C50_iptree_enumerate (st : Bool) {f : Nat} (hf : 66 ≤ f) (ops : List (SOp (Op V)))
    (hl : (Book.init : Book (Op V)).LegalAll2 (fun _ _ => True) (ipImpl st f).inpOk ops) (o : Op V) (sched : List Bool) :
    ∃ s, OStore.init.exec (ipImpl st f) ops = .ok s ∧ ∀ (i j : Nat) r v q, s.roots[i]? = some r → (Book.init.exec ops).vs[i]? = some v → s.roots[j]? = some q →
      let W := cowP f o q
      let e := (Duo.mk (EnumerateTreeP f r) W s.heap).exec sched
      (∀ x, e.reader ≠ .stop x) ∧ (∀ x, e.writer ≠ .stop x) ∧ ((EnumerateTreeP f r).left s.heap ≤ sched.count true → ∃ x, e.reader = .ret x) ∧
      (∀ x, e.reader = .ret x → ∃ l : List (IPNet × V), x = (l.map fun p => (p.1, HV.user p.2)) ∧ (l.Pairwise fun a b => NetBefore a.1 b.1) ∧
        ∀ ps : List (Op V × Option (Fam × POp V)), ps.map Prod.fst = v.2 → (∀ p ∈ ps, OpNet p.1 p.2) →
          (∀ x ∈ l, ∃ g p, IsCanonNet x.1 g p ∧ lastNet (ps.filterMap Prod.snd) g p = some x.2) ∧
          ∀ g p v, lastNet (ps.filterMap Prod.snd) g p = some v → ∃ x ∈ l, IsCanonNet x.1 g p ∧ x.2 = v) ∧
      ∀ y, e.writer = .ret y → W.run s.heap = .ok (y, e.heap) :=
  duo_ok st hf ops hl o sched (fun r => EnumerateTreeP f r) (fun r => EnumerateTreeP_readOnly f r)
    (fun c x => ∃ l : List (IPNet × V), x = (l.map fun p => (p.1, HV.user p.2)) ∧ (l.Pairwise fun a b => NetBefore a.1 b.1) ∧
        ∀ ps : List (Op V × Option (Fam × POp V)), ps.map Prod.fst = c → (∀ p ∈ ps, OpNet p.1 p.2) →
          (∀ x ∈ l, ∃ g p, IsCanonNet x.1 g p ∧ lastNet (ps.filterMap Prod.snd) g p = some x.2) ∧
          ∀ g p v, lastNet (ps.filterMap Prod.snd) g p = some v → ∃ x ∈ l, IsCanonNet x.1 g p ∧ x.2 = v) fun h r l F _ ⟨t, ht, hT⟩ => by
      have ob := netObserves_of_rep hf hT ht
      refine Prog.wp_conseq (EnumerateTreeP_spec hf hT) ?_
      rintro _ h' ⟨e, rfl⟩
      refine ⟨_, rfl, ?_, ?_⟩
      · obtain ⟨ps, p1, p2⟩ := ob.1
        obtain ⟨t1, b1, b2⟩ := C39_enumerate_sorted (start0_empty st) ps p2
        rw [p1, ht] at b1; cases b1
        exact b2
      · intro ps p1 p2
        obtain ⟨t1, b1, b2⟩ := C39_enumerate_sound (start0_empty st) ps p2
        rw [p1, ht] at b1; cases b1
        exact b2

/-! ## A concrete history

Tree 1 gets an IPv4 network and nested IPv6 networks in place, trees 2 to 4 are derived from tree 0. -/

/-- Calls used below. -/
def ipSample : List (SOp (Op Nat)) :=
  [.fresh, .fresh, .cow 0 (.insertNet (some (net6 0x20 0x01 0 0 64)) 1), .cow 2 (.insertNet (some (net6 0x20 0x01 0 1 128)) 2),
   .cow 3 (.deleteByNet (some (net6 0x20 0x01 0 0 100))), .cow 3 (.deleteByIP [0x20, 1, 0, 0, 0, 0, 0, 0, 0, 0, 0, 0, 0, 0, 0, 1]),
   .cow 3 (.insertNet (some (net4 10 0 0 0 8)) 3),
   .inp 1 (.insertNet (some (net6 0x20 0x01 0 1 128)) 7), .inp 1 (.insertNet (some (net6 0x20 0x01 0 0 80)) 8), .inp 1 (.insertIP [10, 1, 1, 1] 9),
   .inp 1 (.insertNet (some (net6 0x20 0x01 0 0 16)) 6), .inp 1 (.insertNet (some (net6 0x20 0x01 0 1 128)) 5)]

/-- Values listed by every held tree. -/
def ipAnswers (st : Bool) (ops : List (SOp (Op Nat))) : Option (List (Option (List (HV Nat)))) :=
  match OStore.init.exec (ipImpl st 66) ops with
  | .ok s => some (s.roots.map fun r => (answer (EnumerateTreeP 66 r) s.heap).map fun l => l.map Prod.snd)
  | .error _ => none

example : ipAnswers true ipSample = some [some [], some [.user 9, .user 6, .user 8, .user 5], some [.user 1], some [.user 1, .user 2], some [.user 1],
    some [.user 1], some [.user 3, .user 1, .user 2]] := by decide +kernel

/-- The sample meets the hypotheses: the in-place calls are on a tree nobody else shares. -/
theorem ipSample_legal : (Book.init : Book (Op Nat)).LegalAll2 (fun _ _ => True) (ipImpl true 66).inpOk ipSample := by
  refine ⟨trivial, trivial, fun _ _ => trivial, fun _ _ => trivial, fun _ _ => trivial, fun _ _ => trivial, fun _ _ => trivial, ?_, ?_, ?_, ?_, ?_, trivial⟩
  all_goals
    intro v hv
    refine ⟨⟨rfl, trivial⟩, fun j u hj hu => ?_⟩
    simp [Book.init, Book.step] at hv hu
    subst hv
    rcases j with _ | _ | _ | _ | _ | _ | _ | j <;> simp at hu <;> simp [← hu] at *

/-- Starting from nil trees. -/
example : ipAnswers false (ipSample.take 7) = some [some [], some [], some [.user 1], some [.user 1, .user 2], some [.user 1], some [.user 1],
    some [.user 3, .user 1, .user 2]] := by decide +kernel

/-- In-place calls on a shared tree are not covered, and do change the other tree: tree 2 shares the nested nodes of tree 1. -/
example : ipAnswers true [.fresh, .cow 0 (.insertNet (some (net6 0x20 0x01 0 0 64)) 1), .cow 1 (.insertNet (some (net4 10 0 0 0 8)) 3),
    .inp 2 (.insertNet (some (net6 0x20 0x01 0 1 128)) 2)] = some [some [], some [.user 1, .user 2], some [.user 3, .user 1, .user 2]] := by decide +kernel

end Verif.Props
