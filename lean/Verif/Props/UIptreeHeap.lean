import Verif.UIPHeap.History
import Verif.Heap.Crash
import Verif.Props.UIptree

/-!
# Property theorems for the generated packages uintX/iptree8, 16, 32, 64 on memory (C59, their part of C50)

A client history is a list of steps on the list of trees the client holds (`SOp`): start a tree (`NewTree()` if `st`, else a nil
`*Tree`), derive a tree from any held tree by `InsertNet`, `InsertIP`, `DeleteByNet` or `DeleteByIP`, call `InplaceInsertNet` or
`InplaceInsertIP` on a held tree, forget a tree.  A held tree is a pointer to its `Tree` struct.  In-place calls are legal on a tree
no other held tree shares its origin with.  Every bound `f ≥ 66` on the number of loop iterations gives the same results.

What a tree shows is stated against the networks its calls write (`OpNet`), the deletions taken as these packages perform them
(`uRun`, see C48).  `C59_as_iptree` restates it with plain last writes for histories without deletions of IPv6 networks below 64 bits.
-/

namespace Verif.Props
open Verif Verif.Heap
open Verif.IP (Op OpNet)
open Verif.UIP (Tree WFT denT base uRun)
open Verif.UIPHeap (UD TRep Leaves uipImpl uipImpl_lawful)
variable {V : Type} [Inhabited V]

/-- All observations through a tree are those of the networks in `m`. -/
def UShowsMap (f : Nat) (h : Heap (UD V)) (r : Ptr) (m : Fam → PMap V) : Prop :=
  (∀ n g p, IsNet n g p → ∃ x, answer (UIPHeap.GetByNetP f r (some n)) h = some x ∧ PMap.IsLongestMatch (m g) p x) ∧
  (∀ n, (∀ g p, ¬ IsNet n g p) → answer (UIPHeap.GetByNetP f r (some n)) h = some none) ∧ answer (UIPHeap.GetByNetP f r none) h = some none ∧
  ∃ l : List (IPNet × V), answer (UIPHeap.EnumerateTreeP f r) h = some l ∧ (l.Pairwise fun a b => NetBefore a.1 b.1) ∧
    (∀ x ∈ l, ∃ g p, IsCanonNet x.1 g p ∧ m g p = some x.2) ∧ ∀ g p v, m g p = some v → ∃ x ∈ l, IsCanonNet x.1 g p ∧ x.2 = v

/-- All observations through a tree are those of the networks left by the calls `ops`. -/
def UShows (f : Nat) (h : Heap (UD V)) (r : Ptr) (ops : List (Op V)) : Prop :=
  (∃ ps : List (Op V × Option (Fam × POp V)), ps.map Prod.fst = ops ∧ ∀ p ∈ ps, OpNet p.1 p.2) ∧
  ∀ ps : List (Op V × Option (Fam × POp V)), ps.map Prod.fst = ops → (∀ p ∈ ps, OpNet p.1 p.2) → UShowsMap f h r (uRun (ps.filterMap Prod.snd))

omit [Inhabited V] in
theorem opNets (ops : List (Op V)) : ∃ ps : List (Op V × Option (Fam × POp V)), ps.map Prod.fst = ops ∧ ∀ p ∈ ps, OpNet p.1 p.2 := by
  induction ops with
  | nil => exact ⟨[], rfl, by simp⟩
  | cons op ops ih =>
    obtain ⟨ps, h1, h2⟩ := ih
    obtain ⟨o, ho⟩ := OpNet.total op
    refine ⟨(op, o) :: ps, by simp [h1], ?_⟩
    simp only [List.mem_cons, forall_eq_or_imp]
    exact ⟨ho, h2⟩

omit [Inhabited V] in
theorem uget_den {t : Option (Tree V)} (ht : WFT (base t)) {n : IPNet} {g : Fam} {p : List Bool} (hn : IsNet n g p) :
    PMap.IsLongestMatch (denT (base t) g) p (UIP.GetByNet t (some n)) := by
  cases t with
  | none => exact .inr ⟨rfl, fun q _ => UIP.denT_new g q⟩
  | some t => exact UIP.getByNet_ok ht hn

omit [Inhabited V] in
theorem ulist_den {t : Option (Tree V)} (ht : WFT (base t)) : ((UIP.Enumerate t).Pairwise fun a b => NetBefore a.1 b.1) ∧
    (∀ x ∈ UIP.Enumerate t, ∃ g p, IsCanonNet x.1 g p ∧ denT (base t) g p = some x.2) ∧
    ∀ g p v, denT (base t) g p = some v → ∃ x ∈ UIP.Enumerate t, IsCanonNet x.1 g p ∧ x.2 = v := by
  cases t with
  | none =>
    refine ⟨List.Pairwise.nil, fun x hx => by simp [UIP.Enumerate] at hx, fun g p v hv => ?_⟩
    rw [UIP.base_none, UIP.denT_new] at hv; cases hv
  | some t => exact ⟨UIP.enumerate_sorted ht, UIP.enumerate_sound ht, fun g p v hv => UIP.enumerate_complete ht hv⟩

omit [Inhabited V] in
theorem uget_answer {f : Nat} (hf : 66 ≤ f) {h : Heap (UD V)} {r : Ptr} {t : Option (Tree V)} {F : Addr → Prop} (hT : TRep h r t F) (n : Option IPNet) :
    answer (UIPHeap.GetByNetP f r n) h = some (UIP.GetByNet t n) := answer_of_wp (W := fun _ => False) (UIPHeap.GetByNetP_spec hf hT n)

omit [Inhabited V] in
theorem uShows_of_rep {f : Nat} (hf : 66 ≤ f) {h : Heap (UD V)} {r : Ptr} {t : Option (Tree V)} {F : Addr → Prop} (hT : TRep h r t F)
    {ops : List (Op V)} (hl : Leaves t ops) : UShows f h r ops := by
  refine ⟨opNets ops, fun ps h1 h2 => ?_⟩
  obtain ⟨hw, hd⟩ := hl
  rw [← hd ps h1 h2]
  refine ⟨fun n g p hn => ⟨_, uget_answer hf hT _, uget_den hw hn⟩, fun n hn => ?_, ?_, _, answer_of_wp (W := fun _ => False) (UIPHeap.EnumerateTreeP_spec hf hT), ulist_den hw⟩
  · rw [uget_answer hf hT, UIP.getByNet_bad hn]
  · rw [uget_answer hf hT]; cases t <;> rfl

/-- C59: in every legal history no call panics or runs on, and every held tree shows exactly the networks its own chain of calls
left, whatever was derived from it or done to other trees. -/
theorem C59_history (st : Bool) {f : Nat} (hf : 66 ≤ f) (ops : List (SOp (Op V)))
    (hl : (Book.init : Book (Op V)).LegalAll2 (fun _ _ => True) (uipImpl st f).inpOk ops) :
    ∃ s, OStore.init.exec (uipImpl st f) ops = .ok s ∧ s.roots.length = (Book.init.exec ops).vs.length ∧
      ∀ (i : Nat) r v, s.roots[i]? = some r → (Book.init.exec ops).vs[i]? = some v → UShows f s.heap r v.2 := by
  obtain ⟨s, e, _, h1, h2⟩ := obj_history (uipImpl_lawful (V := V) st hf ops.length) ops (Nat.le_refl _) hl
  refine ⟨s, e, h1, fun i r v hr hv => ?_⟩
  obtain ⟨_, F, t, hT, hL, _⟩ := h2 i r v hr hv
  exact uShows_of_rep hf hT hL

/-- C59: as long as no IPv6 network below 64 bits was deleted in the chain of a tree, it shows the last writes of the chain. -/
theorem C59_as_iptree (st : Bool) {f : Nat} (hf : 66 ≤ f) (ops : List (SOp (Op V)))
    (hl : (Book.init : Book (Op V)).LegalAll2 (fun _ _ => True) (uipImpl st f).inpOk ops) :
    ∃ s, OStore.init.exec (uipImpl st f) ops = .ok s ∧ ∀ (i : Nat) r v, s.roots[i]? = some r → (Book.init.exec ops).vs[i]? = some v →
      ∀ ps : List (Op V × Option (Fam × POp V)), ps.map Prod.fst = v.2 → (∀ p ∈ ps, OpNet p.1 p.2) →
        (∀ f p, (f, POp.delete p) ∈ ps.filterMap Prod.snd → f = .v4 ∨ ¬ p.length < 64) → UShowsMap f s.heap r (lastNet (ps.filterMap Prod.snd)) := by
  obtain ⟨s, e, _, h⟩ := C59_history st hf ops hl
  refine ⟨s, e, fun i r v hr hv ps p1 p2 hd => ?_⟩
  have := (h i r v hr hv).2 ps p1 p2
  rwa [show uRun (ps.filterMap Prod.snd) = lastNet (ps.filterMap Prod.snd) from funext fun f => funext fun q => UIP.uRun_eq_lastNet _ hd f q] at this

/-- C59: whatever is derived afterwards by InsertNet and DeleteByNet, from this tree or others, a tree obtained earlier answers every
query exactly as it did when it was obtained. -/
theorem C59_persistence (st : Bool) {f : Nat} (hf : 66 ≤ f) (pre post : List (SOp (Op V))) (hc : CowOnly post)
    (hl : (Book.init : Book (Op V)).LegalAll2 (fun _ _ => True) (uipImpl st f).inpOk pre) :
    ∃ s s', OStore.init.exec (uipImpl st f) pre = .ok s ∧ s.exec (uipImpl st f) post = .ok s' ∧ (∀ a, a < s.heap.next → s'.heap.mem a = s.heap.mem a) ∧
      ∀ (i : Nat) r, s.roots[i]? = some r → s'.roots[i]? = some r ∧
        (∀ n, answer (UIPHeap.GetByNetP f r n) s'.heap = answer (UIPHeap.GetByNetP f r n) s.heap ∧ answer (UIPHeap.GetByNetP f r n) s.heap ≠ none) ∧
        answer (UIPHeap.EnumerateTreeP f r) s'.heap = answer (UIPHeap.EnumerateTreeP f r) s.heap ∧ answer (UIPHeap.EnumerateTreeP f r) s.heap ≠ none := by
  obtain ⟨s, s', e1, e2, k1, k2, h⟩ := obj_keep (uipImpl_lawful (V := V) st hf (pre.length + post.length)) pre post (Nat.le_refl _) hc hl
    (legalAll2_cowOnly (fun _ _ => trivial) hc _)
  refine ⟨s, s', e1, e2, k2, fun i r hr => ?_⟩
  obtain ⟨h1, l, F, ⟨t, hT, _⟩, _⟩ := h i r hr
  have hT' := hT.frame k1 fun a ha => k2 a (hT.lt ha)
  refine ⟨h1, fun n => ?_, ?_⟩
  · rw [uget_answer hf hT, uget_answer hf hT']; simp
  · rw [answer_of_wp (W := fun _ => False) (UIPHeap.EnumerateTreeP_spec hf hT), answer_of_wp (W := fun _ => False) (UIPHeap.EnumerateTreeP_spec hf hT')]; simp

/-- C59: after any legal history, InplaceInsertNet on an exclusively held tree does not panic, leaves in the tree what the tree
returned by InsertNet shows, and every other held tree shows what it showed before; InsertNet writes no existing cell. -/
theorem C59_inplace {f : Nat} (hf : 66 ≤ f) (ops : List (SOp (Op V)))
    (hl : (Book.init : Book (Op V)).LegalAll2 (fun _ _ => True) (uipImpl true f).inpOk ops) (i : Nat) (n : Option IPNet) (x : V)
    (hi : ((Book.init : Book (Op V)).exec ops).Legal2 (fun _ _ => True) (uipImpl true f).inpOk (.inp i (.insertNet n x))) :
    ∃ s, OStore.init.exec (uipImpl true f) ops = .ok s ∧ ∀ r v, s.roots[i]? = some r → (Book.init.exec ops).vs[i]? = some v →
      (∃ h', (UIPHeap.InplaceInsertNetP f r n x).run s.heap = .ok ((), h') ∧ UShows f h' r (.insertNet n x :: v.2) ∧
        ∀ (j : Nat) q u, j ≠ i → s.roots[j]? = some q → (Book.init.exec ops).vs[j]? = some u → UShows f h' q u.2) ∧
      ∃ r' h', (UIPHeap.InsertNetP f r n x).run s.heap = .ok (r', h') ∧ UShows f h' r' (.insertNet n x :: v.2) ∧
        ∀ a, a < s.heap.next → h'.mem a = s.heap.mem a := by
  obtain ⟨s, e, h⟩ := obj_inplace (uipImpl_lawful (V := V) true hf (ops.length + 1)) ops (Nat.lt_succ_self _) hl i (.insertNet n x) (.insertNet n x) (fun _ _ => trivial) hi
  refine ⟨s, e, fun r v hr hv => ?_⟩
  obtain ⟨_, ⟨r', h', F, F', _, r1, ⟨t, rT, rt, _⟩, r3, _⟩, ⟨q', k', G', q1, ⟨u, qT, qt, _⟩, q3⟩⟩ := h r v hr hv
  refine ⟨?_, q', k', q1, uShows_of_rep hf qT qt, q3⟩
  have r1 : ((do UIPHeap.InplaceInsertNetP f r n x; pure r) : Prog (UD V) Ptr).run s.heap = .ok (r', h') := r1
  rw [Prog.run_bind] at r1
  cases e1 : (UIPHeap.InplaceInsertNetP f r n x).run s.heap with
  | error er => rw [e1] at r1; cases r1
  | ok z =>
    rw [e1] at r1
    cases r1
    refine ⟨_, rfl, uShows_of_rep hf rT rt, fun j q u hj hq hu => ?_⟩
    obtain ⟨_, F, t, hT, hL, _⟩ := r3 j q u hj hq hu
    exact uShows_of_rep hf hT hL

/-- C59: the in-place calls on a nil tree panic without having written anything, if they get a network they can store; with any other
argument they do nothing. -/
theorem C59_nil (f : Nat) (x : V) (h : Heap (UD V)) :
    (∀ n g p, IsNet n g p → (UIPHeap.InplaceInsertNetP f none (some n) x).crash h = some (.panic, h)) ∧
    (∀ n, (∀ g p, ¬ IsNet n g p) → (UIPHeap.InplaceInsertNetP f none (some n) x).run h = .ok ((), h)) ∧
    (UIPHeap.InplaceInsertNetP f none none x).run h = .ok ((), h) := by
  refine ⟨fun n g p hn => ?_, fun n hn => ?_, rfl⟩
  · cases g with
    | v4 =>
      obtain ⟨k, b, h1, _⟩ := IP.v4Key_of_isNet hn
      simp only [UIPHeap.InplaceInsertNetP, h1]; rfl
    | v6 =>
      have h0 := IP.v4Key_of_v6 hn
      obtain ⟨k, h1, _⟩ := IP.v6Pair_of_isNet hn
      simp only [UIPHeap.InplaceInsertNetP, h0, h1]; rfl
  · obtain ⟨h1, h2⟩ := IP.keys_of_not hn
    simp only [UIPHeap.InplaceInsertNetP, h1, h2]; rfl

/-- Every copy-on-write call is covered. -/
theorem uduo_ok (st : Bool) {f : Nat} (hf : 66 ≤ f) (ops : List (SOp (Op V))) (hl : (Book.init : Book (Op V)).LegalAll2 (fun _ _ => True) (uipImpl st f).inpOk ops) (o : Op V)
    (sched : List Bool) {α : Type} (Rd : Ptr → Prog (UD V) α) (ro : ∀ r, (Rd r).ReadOnly) (P : List (Op V) → α → Prop)
    (hR : ∀ h r l F, l.length ≤ ops.length + 1 → (uipImpl st f).Obj h r l F → Prog.wp (fun _ => False) (Rd r) (fun x _ => P l x) h) :
    ∃ s, OStore.init.exec (uipImpl st f) ops = .ok s ∧ ∀ (i j : Nat) r v q, s.roots[i]? = some r → (Book.init.exec ops).vs[i]? = some v → s.roots[j]? = some q →
      let W := UIPHeap.cowP f o q
      let e := (Duo.mk (Rd r) W s.heap).exec sched
      (∀ x, e.reader ≠ .stop x) ∧ (∀ x, e.writer ≠ .stop x) ∧ ((Rd r).left s.heap ≤ sched.count true → ∃ x, e.reader = .ret x) ∧
      (∀ x, e.reader = .ret x → P v.2 x) ∧ ∀ y, e.writer = .ret y → W.run s.heap = .ok (y, e.heap) := by
  obtain ⟨s, e, h⟩ := obj_duo (uipImpl_lawful (V := V) st hf (ops.length + 1)) ops (Nat.lt_succ_self _) hl o sched Rd ro P hR
  exact ⟨s, e, fun i j r v q hr hv hq => h i j r v q hr hv hq fun _ _ => trivial⟩

/-- C50 (generated IP trees): after any legal history, for every schedule of the memory accesses of a GetByNet on a held tree with
those of an InsertNet or DeleteByNet deriving a new tree from a held tree, the reader never fails, ends once it has had enough
turns, and answers as the old tree does; the writer's result is the one of a run alone. -/
theorem C50_uiptree_get (st : Bool) {f : Nat} (hf : 66 ≤ f) (ops : List (SOp (Op V)))
    (hl : (Book.init : Book (Op V)).LegalAll2 (fun _ _ => True) (uipImpl st f).inpOk ops) (o : Op V) {n : IPNet} {g : Fam} {p : List Bool} (hn : IsNet n g p) (sched : List Bool) :
    ∃ s, OStore.init.exec (uipImpl st f) ops = .ok s ∧ ∀ (i j : Nat) r v q, s.roots[i]? = some r → (Book.init.exec ops).vs[i]? = some v → s.roots[j]? = some q →
      let W := UIPHeap.cowP f o q
      let e := (Duo.mk (UIPHeap.GetByNetP f r (some n)) W s.heap).exec sched
      (∀ x, e.reader ≠ .stop x) ∧ (∀ x, e.writer ≠ .stop x) ∧ ((UIPHeap.GetByNetP (V := V) f r (some n)).left s.heap ≤ sched.count true → ∃ x, e.reader = .ret x) ∧
      (∀ x, e.reader = .ret x → ∀ ps : List (Op V × Option (Fam × POp V)), ps.map Prod.fst = v.2 → (∀ p ∈ ps, OpNet p.1 p.2) →
        PMap.IsLongestMatch (uRun (ps.filterMap Prod.snd) g) p x) ∧
      ∀ y, e.writer = .ret y → W.run s.heap = .ok (y, e.heap) :=
  uduo_ok st hf ops hl o sched (fun r => UIPHeap.GetByNetP f r (some n)) (fun r => UIPHeap.GetByNetP_readOnly f r _)
    (fun l x => ∀ ps : List (Op V × Option (Fam × POp V)), ps.map Prod.fst = l → (∀ p ∈ ps, OpNet p.1 p.2) →
        PMap.IsLongestMatch (uRun (ps.filterMap Prod.snd) g) p x) fun h r l F _ ⟨t, hT, hL, _⟩ => by
      refine Prog.wp_conseq (UIPHeap.GetByNetP_spec hf hT (some n)) ?_
      rintro _ h' ⟨e, rfl⟩ ps p1 p2
      rw [← hL.2 ps p1 p2]
      exact uget_den hL.1 hn

/-- C50 (generated IP trees), the same for the walk of Enumerate. -/
theorem C50_uiptree_enumerate (st : Bool) {f : Nat} (hf : 66 ≤ f) (ops : List (SOp (Op V)))
    (hl : (Book.init : Book (Op V)).LegalAll2 (fun _ _ => True) (uipImpl st f).inpOk ops) (o : Op V) (sched : List Bool) :
    ∃ s, OStore.init.exec (uipImpl st f) ops = .ok s ∧ ∀ (i j : Nat) r v q, s.roots[i]? = some r → (Book.init.exec ops).vs[i]? = some v → s.roots[j]? = some q →
      let W := UIPHeap.cowP f o q
      let e := (Duo.mk (UIPHeap.EnumerateTreeP f r) W s.heap).exec sched
      (∀ x, e.reader ≠ .stop x) ∧ (∀ x, e.writer ≠ .stop x) ∧ ((UIPHeap.EnumerateTreeP (V := V) f r).left s.heap ≤ sched.count true → ∃ x, e.reader = .ret x) ∧
      (∀ l, e.reader = .ret l → (l.Pairwise fun a b => NetBefore a.1 b.1) ∧
        ∀ ps : List (Op V × Option (Fam × POp V)), ps.map Prod.fst = v.2 → (∀ p ∈ ps, OpNet p.1 p.2) →
          (∀ x ∈ l, ∃ g p, IsCanonNet x.1 g p ∧ uRun (ps.filterMap Prod.snd) g p = some x.2) ∧
          ∀ g p v, uRun (ps.filterMap Prod.snd) g p = some v → ∃ x ∈ l, IsCanonNet x.1 g p ∧ x.2 = v) ∧
      ∀ y, e.writer = .ret y → W.run s.heap = .ok (y, e.heap) :=
  uduo_ok st hf ops hl o sched (fun r => UIPHeap.EnumerateTreeP f r) (fun r => UIPHeap.EnumerateTreeP_readOnly f r)
    (fun c l => (l.Pairwise fun a b => NetBefore a.1 b.1) ∧
        ∀ ps : List (Op V × Option (Fam × POp V)), ps.map Prod.fst = c → (∀ p ∈ ps, OpNet p.1 p.2) →
          (∀ x ∈ l, ∃ g p, IsCanonNet x.1 g p ∧ uRun (ps.filterMap Prod.snd) g p = some x.2) ∧
          ∀ g p v, uRun (ps.filterMap Prod.snd) g p = some v → ∃ x ∈ l, IsCanonNet x.1 g p ∧ x.2 = v) fun h r l F _ ⟨t, hT, hL, _⟩ => by
      refine Prog.wp_conseq (UIPHeap.EnumerateTreeP_spec hf hT) ?_
      rintro _ h' ⟨e, rfl⟩
      obtain ⟨d1, d2⟩ := ulist_den hL.1
      refine ⟨d1, fun ps p1 p2 => ?_⟩
      rw [← hL.2 ps p1 p2]
      exact d2

/-! ## A concrete history

Tree 1 gets an IPv4 network and nested IPv6 networks in place, trees 2 to 4 are derived from tree 0.  The last in-place call spells
the network 2001::/16 with bits set behind the mask. -/

/-- Calls used below. -/
def uipSample : List (SOp (Op Nat)) :=
  [.fresh, .fresh, .cow 0 (.insertNet (some (net6 0x20 0x01 0 0 64)) 1), .cow 2 (.insertNet (some (net6 0x20 0x01 0 1 128)) 2),
   .cow 3 (.deleteByNet (some (net6 0x20 0x01 0 0 100))), .cow 3 (.deleteByIP [0x20, 1, 0, 0, 0, 0, 0, 0, 0, 0, 0, 0, 0, 0, 0, 1]),
   .cow 3 (.insertNet (some (net4 10 0 0 0 8)) 3),
   .inp 1 (.insertNet (some (net6 0x20 0x01 0 1 128)) 7), .inp 1 (.insertNet (some (net6 0x20 0x01 0 0 80)) 8), .inp 1 (.insertIP [10, 1, 1, 1] 9),
   .inp 1 (.insertNet (some (net6 0x20 0x01 0 0 16)) 6), .inp 1 (.insertNet (some (net6 0x20 0x01 0 1 128)) 5),
   .inp 1 (.insertNet (some (net6 0x20 0x01 0xff 0xff 16)) 4)]

/-- Values listed by every held tree. -/
def uipAnswers (st : Bool) (ops : List (SOp (Op Nat))) : Option (List (Option (List Nat))) :=
  match OStore.init.exec (uipImpl st 66) ops with
  | .ok s => some (s.roots.map fun r => (answer (UIPHeap.EnumerateTreeP 66 r) s.heap).map fun l => l.map Prod.snd)
  | .error _ => none

example : uipAnswers true uipSample = some [some [], some [9, 4, 8, 5], some [1], some [1, 2], some [1], some [1], some [3, 1, 2]] := by decide +kernel

/-- The sample meets the hypotheses: the in-place calls are on a tree nobody else shares. -/
theorem uipSample_legal : (Book.init : Book (Op Nat)).LegalAll2 (fun _ _ => True) (uipImpl true 66).inpOk uipSample := by
  refine ⟨trivial, trivial, fun _ _ => trivial, fun _ _ => trivial, fun _ _ => trivial, fun _ _ => trivial, fun _ _ => trivial, ?_, ?_, ?_, ?_, ?_, ?_, trivial⟩
  all_goals
    intro v hv
    refine ⟨⟨rfl, trivial⟩, fun j u hj hu => ?_⟩
    simp [Book.init, Book.step] at hv hu
    subst hv
    rcases j with _ | _ | _ | _ | _ | _ | _ | j <;> simp at hu <;> simp [← hu] at *

/-- Starting from nil trees. -/
example : uipAnswers false (uipSample.take 7) = some [some [], some [], some [1], some [1, 2], some [1], some [1], some [3, 1, 2]] := by decide +kernel

/-- In-place calls on a shared tree are not covered, and do change the other tree: tree 2 shares the nested nodes of tree 1. -/
example : uipAnswers true [.fresh, .cow 0 (.insertNet (some (net6 0x20 0x01 0 0 64)) 1), .cow 1 (.insertNet (some (net4 10 0 0 0 8)) 3),
    .inp 2 (.insertNet (some (net6 0x20 0x01 0 1 128)) 2)] = some [some [], some [1, 2], some [3, 1, 2]] := by decide +kernel

/-- On a nil tree. -/
example : (UIPHeap.InplaceInsertNetP 66 none (some (net6 0x20 0x01 0 0 16)) 1).crash (.empty : Heap (UD Nat)) = some (.panic, .empty) :=
  (C59_nil 66 1 .empty).1 _ .v6 [false, false, true, false, false, false, false, false, false, false, false, false, false, false, false, true]
    ⟨rfl, rfl, by decide, by decide +kernel, by decide +kernel⟩

end Verif.Props
