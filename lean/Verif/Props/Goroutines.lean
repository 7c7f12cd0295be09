import Verif.Heap.ToObj
import Verif.Props.NumtreeHeap
import Verif.Props.StrtreeHeap
import Verif.Props.IptreeHeap
import Verif.Props.DomaintreeHeap
import Verif.Props.DltreeHeap
import Verif.Props.UIptreeHeap

/-!
# Property theorems for many goroutines working from the same trees (C57)

After a history of the client (as in C05, C13, C33, C45) any number of goroutines `T` start with the trees held.  Each runs a script:
it derives trees from trees it has, starts trees of its own, inserts in place into trees it started itself, forgets trees, and
reads.  A schedule gives turns, one memory access at a time.  `Promise` says what each goroutine can rely on: whatever the others do
and however the turns fall, it behaves as if it were alone.
-/

namespace Verif.Props
open Verif Verif.Heap Prog

theorem wp_of_answer {D α : Type} {W : Nat → Prop} {p : Prog D α} {h : Heap D} {Q : α → Heap D → Prop} {G : α → Prop} (hw : wp W p Q h)
    (hq : ∀ x h', Q x h' → h' = h) {x : α} (ha : answer p h = some x) (hx : G x) : wp W p (fun y h' => h' = h ∧ G y) h := by
  refine wp_strengthen hw fun y h' hr hy => ⟨hq y h' hy, ?_⟩
  simp only [answer, hr, Option.some.injEq] at ha
  rw [ha]; exact hx

/-- Answer of a read: a value or a listing. -/
inductive Reply (V L : Type) where
  | val (x : Option V)
  | list (l : List L)
  deriving DecidableEq

section Numtree
open Verif.Num Verif.NumHeap
variable {w : Nat} {V : Type} [LawfulKeySize w] [Inhabited V]

/-- Reads of numtree. -/
inductive NumQ (w : Nat) where
  | exact (k : BitVec w) (bits : Int)
  | longest (k : BitVec w) (bits : Int)
  | list

def numRead (f : Nat) : NumQ w → Ptr → Prog (ND w V) (Reply V (ND w V))
  | .exact k bits, r => ExactMatchP f r k bits >>= fun x => pure (.val x)
  | .longest k bits, r => MatchP f r k bits >>= fun x => pure (.val x)
  | .list, r => EnumerateP f r >>= fun x => pure (.list x)

/-- The right answers on a tree made by the calls `ops`. -/
def NumRight : NumQ w → List (NumOp w V) → Reply V (ND w V) → Prop
  | .exact k bits, ops, x => x = .val (lastWrite (ops.map NumOp.abs) (sig k (clampSpec w bits)))
  | .longest k bits, ops, x => ∃ y, x = .val y ∧ PMap.IsLongestMatch (lastWrite (ops.map NumOp.abs)) (sig k (clampSpec w bits)) y
  | .list, ops, x => ∃ l, x = .list l ∧ (∀ q v, lastWrite (ops.map NumOp.abs) q = some v ↔ ∃ n ∈ l, sig n.key n.bits = q ∧ n.value = v) ∧
    l.Pairwise fun a b => netKey a.key a.bits < netKey b.key b.bits ∨ (netKey a.key a.bits = netKey b.key b.bits ∧ a.bits < b.bits)

theorem numRead_ok {f : Nat} (hf : w + 2 ≤ f) (q : NumQ w) (h : Heap (ND w V)) (r : Ptr) (l : List (NumOp w V)) (F : Addr → Prop) (ho : (numImpl f w V).toO.Obj h r l F) :
    wp (fun _ => False) (numRead f q r) (fun x h' => h' = h ∧ NumRight q l x) h := by
  obtain ⟨A, rfl, a1, a2, _, _⟩ := ho
  have ob := observes_of_rep hf a1 (show ATree.erase A = Num.run l from a2)
  have hh : A.height < f := by
    have := run_height (w := w) (V := V) l
    have e := erase_height A
    rw [show ATree.erase A = Num.run l from a2] at e; omega
  cases q with
  | exact k bits =>
    simp only [numRead, wp_bind, wp_pure]
    exact wp_conseq (wp_of_answer (ExactMatchP_spec hh a1 k bits) (fun _ _ h => h.1) (ob.1 k bits) rfl) fun x h' hx => ⟨hx.1, congrArg Reply.val hx.2.symm⟩
  | longest k bits =>
    simp only [numRead, wp_bind, wp_pure]
    obtain ⟨x, h1, h2⟩ := ob.2.1 k bits
    exact wp_conseq (wp_of_answer (MatchP_spec hh a1 k bits) (fun _ _ h => h.1) h1 h2) fun x h' hx => ⟨hx.1, x, rfl, hx.2⟩
  | list =>
    simp only [numRead, wp_bind, wp_pure]
    obtain ⟨x, h1, h2⟩ := ob.2.2
    exact wp_conseq (wp_of_answer (EnumerateP_spec hh a1) (fun _ _ h => h.1) h1 h2) fun x h' hx => ⟨hx.1, x, rfl, hx.2⟩

/-- C57 (numtree): goroutines deriving trees by Insert and Delete from shared roots, reading them, and inserting in place into
trees of their own do not notice each other. -/
theorem C57_numtree {f : Nat} (hf : w + 2 ≤ f) (ops : List (SOp (NumOp w V)))
    (hl : (Book.init : Book (NumOp w V)).LegalAll2 (numImpl f w V).toO.cowOk (numImpl f w V).toO.inpOk ops)
    {T : Type} [DecidableEq T] (script : T → List (TOp (NumOp w V) (NumQ w)))
    (hs : ∀ t, (Book.init.exec ops).LegalT (numImpl f w V).toO.cowOk (numImpl f w V).toO.inpOk (Book.init.exec ops).next (script t))
    (hN : ∃ N, ∀ t, (script t).length ≤ N) (sched : List T) :
    ∃ s, OStore.init.exec (numImpl f w V).toO ops = .ok s ∧ ∀ t,
      let prog := fun t => sessionP (numImpl f w V).toO (numRead f) (script t) s.roots
      Promise s (Book.init.exec ops) script prog NumRight (fun h r l => Observes f h r (lastWrite (l.map NumOp.abs)))
        ((Fleet.start s.heap prog).exec sched) sched t := by
  obtain ⟨N, hN⟩ := hN
  refine obj_fleet (Impl.toO_lawful (numImpl_lawful (V := V) hf (ops.length + N))) ops hl (numRead f) NumRight _ ?_ ?_ script (by omega)
    (fun t => by have := hN t; omega) hs sched
  · exact fun q h r l F _ ho => numRead_ok hf q h r l F ho
  · rintro h r l F _ ⟨A, rfl, a1, a2, _, _⟩
    exact observes_of_rep hf a1 a2

end Numtree

section Strtree
open Verif.RB Verif.RBHeap
variable {V : Type} [Inhabited V]

/-- Reads of strtree: Get and Enumerate. -/
inductive KVQ where
  | get (k : Bytes)
  | list

def kvRead (cmp : Bytes → Bytes → Int) (f : Nat) : KVQ → Ptr → Prog (RD Bytes V) (Reply V (Bytes × V))
  | .get k, r => getP cmp f r k >>= fun x => pure (.val x)
  | .list, r => enumerateP f r >>= fun x => pure (.list x)

/-- The right answers on a tree made by the calls `ops`. -/
def KVRight (cmp : Bytes → Bytes → Int) : KVQ → List (KOp Bytes V) → Reply V (Bytes × V) → Prop
  | .get k, ops, x => x = .val (lastWriteBy cmp ops k)
  | .list, ops, x => ∃ l, x = .list l ∧ (l.Pairwise fun a b => cmp a.1 b.1 < 0) ∧
    ∀ k v, (k, v) ∈ l ↔ firstSpelling cmp ops k = some k ∧ lastWriteBy cmp ops k = some v

theorem kvRead_ok {cmp : Bytes → Bytes → Int} (hc : LawfulCmp cmp) {f n : Nat} (hf : 2 * n + 3 ≤ f) (q : KVQ) (h : Heap (RD Bytes V)) (r : Ptr) (l : List (KOp Bytes V)) (F : Addr → Prop) (hn : l.length ≤ n) (ho : (rbImpl cmp f).toO.Obj h r l F) :
    wp (fun _ => False) (kvRead cmp f q r) (fun x h' => h' = h ∧ KVRight cmp q l x) h := by
  obtain ⟨A, rfl, a1, a2, _, _⟩ := ho
  have ob := kvObserves_of_rep hc (f := f) (by omega) hn a1 a2
  have hh := rb_fuel hc.refl (f := f) (by omega) hn a2
  cases q with
  | get k =>
    simp only [kvRead, wp_bind, wp_pure]
    exact wp_conseq (wp_of_answer (getP_spec hh a1 k) (fun _ _ h => h.1) (ob.1 k) rfl) fun x h' hx => ⟨hx.1, congrArg Reply.val hx.2.symm⟩
  | list =>
    simp only [kvRead, wp_bind, wp_pure]
    obtain ⟨x, h1, h2⟩ := ob.2
    exact wp_conseq (wp_of_answer (enumerateP_spec hh a1) (fun _ _ h => h.1) h1 h2) fun x h' hx => ⟨hx.1, x, rfl, hx.2⟩

/-- C57 (strtree): goroutines deriving trees by Insert and Delete from shared trees, reading them, and inserting in place into
trees of their own do not notice each other.  `N` bounds the length of the scripts. -/
theorem C57_strtree {cmp : Bytes → Bytes → Int} (hc : LawfulCmp cmp) (ops : List (SOp (KOp Bytes V))) {f N : Nat} (hf : 2 * (ops.length + N) + 3 ≤ f)
    (hl : (Book.init : Book (KOp Bytes V)).LegalAll2 (rbImpl cmp f).toO.cowOk (rbImpl cmp f).toO.inpOk ops)
    {T : Type} [DecidableEq T] (script : T → List (TOp (KOp Bytes V) KVQ)) (hN : ∀ t, (script t).length ≤ N)
    (hs : ∀ t, (Book.init.exec ops).LegalT (rbImpl cmp f).toO.cowOk (rbImpl cmp f).toO.inpOk (Book.init.exec ops).next (script t))
    (sched : List T) :
    ∃ s, OStore.init.exec (rbImpl cmp f).toO ops = .ok s ∧ ∀ t,
      let prog := fun t => sessionP (rbImpl cmp f).toO (kvRead cmp f) (script t) s.roots
      Promise s (Book.init.exec ops) script prog (KVRight cmp) (KVObserves cmp f) ((Fleet.start s.heap prog).exec sched) sched t := by
  refine obj_fleet (Impl.toO_lawful (rbImpl_lawful (V := V) hc.refl hf)) ops hl (kvRead cmp f) (KVRight cmp) _ ?_ ?_ script (by omega)
    (fun t => by have := hN t; omega) hs sched
  · exact fun q h r l F hn ho => kvRead_ok hc hf q h r l F hn ho
  · rintro h r l F hn ⟨A, rfl, a1, a2, _, _⟩
    exact kvObserves_of_rep hc (by omega) hn a1 a2

end Strtree

section Iptree
open Verif.IP Verif.IPHeap
variable {V : Type} [Inhabited V]

/-- Reads of iptree: GetByNet (of a network or nil) and Enumerate. -/
inductive NetQ where
  | get (n : Option IPNet)
  | list

def netRead (f : Nat) : NetQ → Ptr → Prog (IPD V) (Reply (HV V) (IPNet × HV V))
  | .get n, r => GetByNetP f r n >>= fun x => pure (.val x)
  | .list, r => EnumerateTreeP f r >>= fun x => pure (.list x)

/-- The right answers on a tree made by the calls `ops`: they write the networks `ps`. -/
def NetRight : NetQ → List (Op V) → Reply (HV V) (IPNet × HV V) → Prop
  | .get n, ops, x => ∀ ps : List (Op V × Option (Fam × POp V)), ps.map Prod.fst = ops → (∀ p ∈ ps, OpNet p.1 p.2) →
    (∀ m g p, n = some m → IsNet m g p → ∃ y, x = .val (y.map .user) ∧ PMap.IsLongestMatch (lastNet (ps.filterMap Prod.snd) g) p y) ∧
    ((∀ m g p, n = some m → ¬ IsNet m g p) → x = .val none)
  | .list, ops, x => ∀ ps : List (Op V × Option (Fam × POp V)), ps.map Prod.fst = ops → (∀ p ∈ ps, OpNet p.1 p.2) →
    ∃ l : List (IPNet × V), x = .list (l.map fun p => (p.1, .user p.2)) ∧ (l.Pairwise fun a b => NetBefore a.1 b.1) ∧
      (∀ x ∈ l, ∃ g p, IsCanonNet x.1 g p ∧ lastNet (ps.filterMap Prod.snd) g p = some x.2) ∧
      ∀ g p v, lastNet (ps.filterMap Prod.snd) g p = some v → ∃ x ∈ l, IsCanonNet x.1 g p ∧ x.2 = v

theorem netRead_ok {st : Bool} {f : Nat} (hf : 66 ≤ f) (q : NetQ) (h : Heap (IPD V)) (r : Ptr) (l : List (Op V)) (F : Addr → Prop) (ho : (ipImpl st f).Obj h r l F) :
    wp (fun _ => False) (netRead f q r) (fun x h' => h' = h ∧ NetRight q l x) h := by
  obtain ⟨t, ht, hT⟩ := ho
  have ob := netObserves_of_rep hf hT ht
  cases q with
  | get n =>
    simp only [netRead, wp_bind, wp_pure]
    refine wp_strengthen (GetByNetP_spec hf hT n) fun x h' hr hx => ⟨hx.1, fun ps p1 p2 => ?_⟩
    obtain ⟨o1, o2, o3, _⟩ := ob.2 ps p1 p2
    have ea : ∀ z, answer (GetByNetP f r n) h = some z → x = z := by
      intro z hz
      simp only [answer, hr, Option.some.injEq] at hz
      exact hz
    constructor
    · rintro m g p rfl hm
      obtain ⟨y, y1, y2⟩ := o1 m g p hm
      exact ⟨y, by rw [ea _ y1], y2⟩
    · intro hn
      cases n with
      | none => rw [ea _ o3]
      | some m => rw [ea _ (o2 m fun g p => hn m g p rfl)]
  | list =>
    simp only [netRead, wp_bind, wp_pure]
    refine wp_strengthen (EnumerateTreeP_spec hf hT) fun x h' hr hx => ⟨hx.1, fun ps p1 p2 => ?_⟩
    obtain ⟨_, _, _, y, y1, y2⟩ := ob.2 ps p1 p2
    simp only [answer, hr, Option.some.injEq] at y1
    exact ⟨y, by rw [y1], y2⟩

/-- C57 (iptree): goroutines deriving trees by InsertNet/IP and DeleteByNet/IP from shared trees, reading them, and inserting in
place into trees of their own do not notice each other. -/
theorem C57_iptree (st : Bool) {f : Nat} (hf : 66 ≤ f) (ops : List (SOp (Op V)))
    (hl : (Book.init : Book (Op V)).LegalAll2 (fun _ _ => True) (ipImpl st f).inpOk ops)
    {T : Type} [DecidableEq T] (script : T → List (TOp (Op V) NetQ))
    (hs : ∀ t, (Book.init.exec ops).LegalT (fun _ _ => True) (ipImpl st f).inpOk (Book.init.exec ops).next (script t))
    (hN : ∃ N, ∀ t, (script t).length ≤ N) (sched : List T) :
    ∃ s, OStore.init.exec (ipImpl st f) ops = .ok s ∧ ∀ t,
      let prog := fun t => sessionP (ipImpl st f) (netRead f) (script t) s.roots
      Promise s (Book.init.exec ops) script prog NetRight (NetObserves f) ((Fleet.start s.heap prog).exec sched) sched t := by
  obtain ⟨N, hN⟩ := hN
  refine obj_fleet (ipImpl_lawful (V := V) st hf (ops.length + N)) ops hl (netRead f) NetRight _ ?_ ?_ script (by omega)
    (fun t => by have := hN t; omega) hs sched
  · exact fun q h r l F _ ho => netRead_ok hf q h r l F ho
  · rintro h r l F _ ⟨t, ht, hT⟩
    exact netObserves_of_rep hf hT ht

end Iptree

section UIptree
open Verif.IP (Op OpNet)
open Verif.UIPHeap (UD uipImpl uipImpl_lawful)
open Verif.UIP (uRun)
variable {V : Type} [Inhabited V]

def unetRead (f : Nat) : NetQ → Ptr → Prog (UD V) (Reply V (IPNet × V))
  | .get n, r => UIPHeap.GetByNetP f r n >>= fun x => pure (.val x)
  | .list, r => UIPHeap.EnumerateTreeP f r >>= fun x => pure (.list x)

/-- The right answers on a tree made by the calls `ops`: they write the networks `ps`. -/
def UNetRight : NetQ → List (Op V) → Reply V (IPNet × V) → Prop
  | .get n, ops, x => ∀ ps : List (Op V × Option (Fam × POp V)), ps.map Prod.fst = ops → (∀ p ∈ ps, OpNet p.1 p.2) →
    (∀ m g p, n = some m → IsNet m g p → ∃ y, x = .val y ∧ PMap.IsLongestMatch (uRun (ps.filterMap Prod.snd) g) p y) ∧
    ((∀ m g p, n = some m → ¬ IsNet m g p) → x = .val none)
  | .list, ops, x => ∀ ps : List (Op V × Option (Fam × POp V)), ps.map Prod.fst = ops → (∀ p ∈ ps, OpNet p.1 p.2) →
    ∃ l : List (IPNet × V), x = .list l ∧ (l.Pairwise fun a b => NetBefore a.1 b.1) ∧
      (∀ x ∈ l, ∃ g p, IsCanonNet x.1 g p ∧ uRun (ps.filterMap Prod.snd) g p = some x.2) ∧
      ∀ g p v, uRun (ps.filterMap Prod.snd) g p = some v → ∃ x ∈ l, IsCanonNet x.1 g p ∧ x.2 = v

theorem unetRead_ok {st : Bool} {f : Nat} (hf : 66 ≤ f) (q : NetQ) (h : Heap (UD V)) (r : Ptr) (l : List (Op V)) (F : Addr → Prop) (ho : (uipImpl st f).Obj h r l F) :
    wp (fun _ => False) (unetRead f q r) (fun x h' => h' = h ∧ UNetRight q l x) h := by
  obtain ⟨t, hT, hL, _⟩ := ho
  cases q with
  | get n =>
    simp only [unetRead, wp_bind, wp_pure]
    refine wp_conseq (UIPHeap.GetByNetP_spec hf hT n) ?_
    rintro x h' ⟨e, rfl⟩
    refine ⟨e, fun ps p1 p2 => ⟨?_, fun hn => ?_⟩⟩
    · rintro m g p rfl hm
      refine ⟨_, rfl, ?_⟩
      rw [← hL.2 ps p1 p2]
      exact uget_den hL.1 hm
    · cases n with
      | none => cases t <;> rfl
      | some m => rw [UIP.getByNet_bad fun g p => hn m g p rfl]
  | list =>
    simp only [unetRead, wp_bind, wp_pure]
    refine wp_conseq (UIPHeap.EnumerateTreeP_spec hf hT) ?_
    rintro x h' ⟨e, rfl⟩
    refine ⟨e, fun ps p1 p2 => ⟨_, rfl, ?_⟩⟩
    rw [← hL.2 ps p1 p2]
    exact ulist_den hL.1

/-- C57 (generated IP trees): goroutines deriving trees by InsertNet/IP and DeleteByNet/IP from shared trees, reading them, and
inserting in place into trees of their own do not notice each other. -/
theorem C57_uiptree (st : Bool) {f : Nat} (hf : 66 ≤ f) (ops : List (SOp (Op V)))
    (hl : (Book.init : Book (Op V)).LegalAll2 (fun _ _ => True) (uipImpl st f).inpOk ops)
    {T : Type} [DecidableEq T] (script : T → List (TOp (Op V) NetQ))
    (hs : ∀ t, (Book.init.exec ops).LegalT (fun _ _ => True) (uipImpl st f).inpOk (Book.init.exec ops).next (script t))
    (hN : ∃ N, ∀ t, (script t).length ≤ N) (sched : List T) :
    ∃ s, OStore.init.exec (uipImpl st f) ops = .ok s ∧ ∀ t,
      let prog := fun t => sessionP (uipImpl st f) (unetRead f) (script t) s.roots
      Promise s (Book.init.exec ops) script prog UNetRight (UShows f) ((Fleet.start s.heap prog).exec sched) sched t := by
  obtain ⟨N, hN⟩ := hN
  refine obj_fleet (uipImpl_lawful (V := V) st hf (ops.length + N)) ops hl (unetRead f) UNetRight _ ?_ ?_ script (by omega)
    (fun t => by have := hN t; omega) hs sched
  · exact fun q h r l F _ ho => unetRead_ok hf q h r l F ho
  · rintro h r l F _ ⟨t, hT, hL, _⟩
    exact uShows_of_rep hf hT hL

end UIptree

section Domaintree
open Verif.Domain Verif.DomTree Verif.DomHeap
variable {V : Type}

/-- Reads of domaintree: Get of a name made from text, and Enumerate. -/
inductive DomQ where
  | get (d : Name) (ls : List Bytes) (h : Parsed d ls)
  | list

def domRead (f : Nat) : DomQ → Ptr → Prog (DD V) (Reply V (Bytes × V))
  | .get d _ _, r => GetP f r d >>= fun x => pure (.val x)
  | .list, r => EnumerateTreeP f r >>= fun x => pure (.list x)

/-- The right answers on a tree made by the calls `ops`. -/
def DomRight : DomQ → List (Op V) → Reply V (Bytes × V) → Prop
  | .get _ ls _, ops, x => ∃ y, x = .val y ∧ DMap.IsClosest (storedBy ops).noRoot ls y
  | .list, ops, x => ∃ l, x = .list l ∧ ListsAs l (storedBy ops)

theorem domRead_ok {st : Bool} {f n0 : Nat} (hf : 2 * n0 + 3 ≤ f) (hk : 128 ≤ f) (q : DomQ) (h : Heap (DD V)) (r : Ptr) (l : List (Op V)) (F : Addr → Prop) (hn : l.length ≤ n0) (ho : (domImpl st f).Obj h r l F) :
    wp (fun _ => False) (domRead f q r) (fun x h' => h' = h ∧ DomRight q l x) h := by
  obtain ⟨h0, n, hr, hN⟩ := ho
  cases q with
  | get d ls hd =>
    simp only [domRead, wp_bind, Prog.wp_pure]
    obtain ⟨x, h1, h2⟩ := get_of_run h0 hr hd
    exact wp_conseq (wp_of_answer (GetP_spec (f := f) (DLHeap.tall_lt (by omega)) hN hd.holds (by have := hd.holds.count; omega)) (fun _ _ h => h.1)
      (dom_get_answer (DLHeap.tall_lt (by omega)) hN hd h1) h2) fun x h' hx => ⟨hx.1, x, rfl, hx.2⟩
  | list =>
    simp only [domRead, wp_bind, Prog.wp_pure]
    obtain ⟨xs, h1, h2⟩ := lists_of_run h0 hr
    refine wp_conseq (EnumerateTreeP_spec (DLHeap.tall_lt (by omega)) hk hN h1) ?_
    rintro x h' ⟨e, rfl⟩
    exact ⟨e, _, rfl, h2⟩

/-- C57 (domaintree): goroutines deriving trees by Insert, Delete and DeleteSubdomains from shared trees, reading them, and inserting
in place into trees of their own do not notice each other.  `N` bounds the length of the scripts. -/
theorem C57_domaintree (st : Bool) (ops : List (SOp (Op V))) {f N : Nat} (hf : 2 * (ops.length + N) + 3 ≤ f) (hk : 128 ≤ f)
    (hl : (Book.init : Book (Op V)).LegalAll2 cowOk (inpOk st) ops)
    {T : Type} [DecidableEq T] (script : T → List (TOp (Op V) DomQ)) (hN : ∀ t, (script t).length ≤ N)
    (hs : ∀ t, (Book.init.exec ops).LegalT cowOk (inpOk st) (Book.init.exec ops).next (script t)) (sched : List T) :
    ∃ s, OStore.init.exec (domImpl st f) ops = .ok s ∧ ∀ t,
      let prog := fun t => sessionP (domImpl st f) (domRead f) (script t) s.roots
      Promise s (Book.init.exec ops) script prog DomRight (DomObserves f) ((Fleet.start s.heap prog).exec sched) sched t := by
  refine obj_fleet (domImpl_lawful (V := V) st hf) ops hl (domRead f) DomRight _ ?_ ?_ script (by omega)
    (fun t => by have := hN t; omega) hs sched
  · exact fun q h r l F hn ho => domRead_ok hf hk q h r l F hn ho
  · rintro h r l F hn ho
    exact domObserves_of_rep (by omega) hk ho

end Domaintree

/-! ## dltree -/

section Dltree
open Verif.DL Verif.DLHeap
variable {V : Type} [Inhabited V]

/-- The queries. -/
inductive LabelQ where
  | raw (l : Bytes)
  | get (s l : Bytes) (h : Means s l)
  | list

def labelRead (f : Nat) : LabelQ → Ptr → Prog (LD V) (Reply V (Bytes × V))
  | .raw l, r => RawGetP lm f r l >>= fun x => pure (.val x)
  | .get s _ _, r => GetP lm f r s >>= fun x => pure (.val x)
  | .list, r => RawEnumerateP lm f r >>= fun x => pure (.list x)

/-- The right answers on a tree made by the calls `ops`. -/
def LabelRight (q : LabelQ) (ops : List (DL.Op V)) (x : Reply V (Bytes × V)) : Prop :=
  ∀ ps : List (DL.Op V × KOp Bytes V), ps.map Prod.fst = ops → (∀ p ∈ ps, OpMeans p.1 p.2) →
    match q with
    | .raw l => x = .val (lastWrite' (ps.map Prod.snd) l)
    | .get _ l _ => x = .val (lastWrite' (ps.map Prod.snd) l)
    | .list => ∃ xs, x = .list xs ∧ (∀ l v, (l, v) ∈ xs ↔ lastWrite' (ps.map Prod.snd) l = some v) ∧
        xs.Pairwise (fun a b => a.1.length < b.1.length ∨ (a.1.length = b.1.length ∧ a.1 < b.1))

theorem labelRead_ok {st : Bool} {f n : Nat} (hf : 2 * n + 3 ≤ f) (q : LabelQ) (h : Heap (LD V)) (r : Ptr) (l : List (DL.Op V)) (F : Addr → Prop) (hn : l.length ≤ n) (ho : (dlImpl st f).Obj h r l F) :
    wp (fun _ => False) (labelRead f q r) (fun x h' => h' = h ∧ LabelRight q l x) h := by
  obtain ⟨h0, A, hL, hr, _⟩ := ho
  cases q with
  | raw k =>
    simp only [labelRead, wp_bind, Prog.wp_pure]
    refine wp_conseq (RawGetP_spec hL (DLHeap.tall_lt (by omega)) k) ?_
    rintro x h' ⟨e, rfl⟩
    refine ⟨e, ?_⟩
    rintro ps rfl hp
    simp only
    rw [← (dl_run_facts hp hr).1, rawGet_eq, hL.rootOf]
  | get s k hm =>
    simp only [labelRead, wp_bind, Prog.wp_pure, GetP_eq hm.labelOf]
    refine wp_conseq (RawGetP_spec hL (DLHeap.tall_lt (by omega)) k) ?_
    rintro x h' ⟨e, rfl⟩
    refine ⟨e, ?_⟩
    rintro ps rfl hp
    simp only
    rw [← (dl_run_facts hp hr).1, rawGet_eq, hL.rootOf]
  | list =>
    simp only [labelRead, wp_bind, Prog.wp_pure]
    refine wp_conseq (RawEnumerateP_spec hL (DLHeap.tall_lt (by omega))) ?_
    rintro x h' ⟨e, rfl⟩
    refine ⟨e, ?_⟩
    rintro ps rfl hp
    obtain ⟨_, a2, a3, _⟩ := dl_run_facts hp hr
    rw [RawEnumerate, hL.rootOf] at a2 a3
    exact ⟨_, rfl, a2, a3⟩

/-- C57 (dltree): goroutines deriving trees by Insert, RawInsert, Delete and RawDelete from shared trees, reading them, and inserting
in place into trees of their own do not notice each other.  `N` bounds the length of the scripts. -/
theorem C57_dltree (st : Bool) (ops : List (SOp (DL.Op V))) {f N : Nat} (hf : 2 * (ops.length + N) + 3 ≤ f)
    (hl : (Book.init : Book (DL.Op V)).LegalAll2 dlCow (dlInp st) ops)
    {T : Type} [DecidableEq T] (script : T → List (TOp (DL.Op V) LabelQ)) (hN : ∀ t, (script t).length ≤ N)
    (hs : ∀ t, (Book.init.exec ops).LegalT dlCow (dlInp st) (Book.init.exec ops).next (script t)) (sched : List T) :
    ∃ s, OStore.init.exec (dlImpl st f) ops = .ok s ∧ ∀ t,
      let prog := fun t => sessionP (dlImpl st f) (labelRead f) (script t) s.roots
      Promise s (Book.init.exec ops) script prog LabelRight (DLShows f) ((Fleet.start s.heap prog).exec sched) sched t := by
  refine obj_fleet (dlImpl_lawful (V := V) st hf) ops hl (labelRead f) LabelRight _ ?_ ?_ script (by omega)
    (fun t => by have := hN t; omega) hs sched
  · exact fun q h r l F hn ho => labelRead_ok hf q h r l F hn ho
  · rintro h r l F hn ho
    exact dlShows_of_obj (by omega) ho

end Dltree

/-! ## Concrete cases -/

instance {V L : Type} [DecidableEq V] [DecidableEq L] : DecidableEq (List (Option (Reply V L))) := inferInstance

/-- What the threads have when the schedule is over: for every thread the answers of its reads, if it has ended. -/
def finals {D O R K A : Type} (I : OImpl D O R) (Rd : K → R → Prog D A) (ops : List (SOp O)) (n : Nat) (script : Fin n → List (TOp O K)) (sched : List (Fin n)) :
    Option (List (Option (List (Option A)))) :=
  match OStore.init.exec I ops with
  | .ok s =>
    let e := (Fleet.start s.heap fun t => sessionP I Rd (script t) s.roots).exec sched
    some ((List.finRange n).map fun t => match e.prog t with
      | .ret x => some x.1
      | _ => none)
  | .error _ => none

/-- Turns in rotation. -/
def turns (n k : Nat) (h : 0 < n) : List (Fin n) := (List.range k).map fun i => ⟨i % n, Nat.mod_lt _ h⟩

section
open Verif.RB Verif.RBHeap

/-- Tree 0 is empty, tree 1 has key 2, tree 2 has keys 1 and 2. -/
def kvShared : List (SOp (KOp Bytes Nat)) := [.fresh, .cow 0 (.insert [2] 2), .cow 1 (.insert [1] 1)]

/-- Three goroutines: one inserts into tree 2, one deletes from it, one makes a tree of its own in place. -/
def kvScript : Fin 3 → List (TOp (KOp Bytes Nat) KVQ)
  | 0 => [.read 2 (.get [1]), .call (.cow 2 (.insert [3] 3)), .read 3 .list]
  | 1 => [.call (.cow 2 (.delete [2])), .read 3 .list, .read 2 .list]
  | 2 => [.call .fresh, .call (.inp 3 (.insert [9] 9)), .call (.inp 3 (.insert [8] 8)), .read 3 .list, .read 2 .list]

example : finals (rbImpl compareBytes 20).toO (kvRead compareBytes 20) kvShared 3 kvScript (turns 3 240 (by decide)) =
    some [some [some (.val (some 1)), some (.list [([1], 1), ([2], 2), ([3], 3)])],
      some [some (.list [([1], 1)]), some (.list [([1], 1), ([2], 2)])],
      some [some (.list [([8], 8), ([9], 9)]), some (.list [([1], 1), ([2], 2)])]] := by decide +kernel

/-- The case meets the hypotheses. -/
example : (Book.init : Book (KOp Bytes Nat)).LegalAll2 (rbImpl compareBytes 20).toO.cowOk (rbImpl compareBytes 20).toO.inpOk kvShared :=
  ⟨trivial, fun _ _ => trivial, fun _ _ => trivial, trivial⟩

example : ∀ t, (Book.init.exec kvShared).LegalT (rbImpl compareBytes 20).toO.cowOk (rbImpl compareBytes 20).toO.inpOk (Book.init.exec kvShared).next (kvScript t) := by
  intro t
  match t with
  | 0 => exact ⟨⟨fun _ _ => trivial, trivial⟩, trivial⟩
  | 1 => exact ⟨⟨fun _ _ => trivial, trivial⟩, trivial⟩
  | 2 =>
    refine ⟨⟨trivial, trivial⟩, ⟨?_, ?_⟩, ⟨?_, ?_⟩, trivial⟩
    · intro v hv
      refine ⟨trivial, fun j u hj hu => ?_⟩
      simp [kvShared, Book.exec, Book.init, Book.step] at hv hu
      subst hv
      rcases j with _ | _ | _ | _ | j <;> simp at hu <;> simp [← hu] at *
    · intro v hv
      simp [kvShared, Book.exec, Book.init, Book.step] at hv ⊢
      subst hv; decide
    · intro v hv
      refine ⟨trivial, fun j u hj hu => ?_⟩
      simp [kvShared, Book.exec, Book.init, Book.step] at hv hu
      subst hv
      rcases j with _ | _ | _ | _ | j <;> simp at hu <;> simp [← hu] at *
    · intro v hv
      simp [kvShared, Book.exec, Book.init, Book.step] at hv ⊢
      subst hv; decide

/-- Not covered, and wrong: a goroutine inserting in place into a shared tree changes the answers of another one halfway. -/
example : finals (rbImpl compareBytes 20).toO (kvRead compareBytes 20) kvShared 2
    (fun | 0 => [.call (.inp 2 (.insert [1] 7))] | 1 => [.read 2 .list, .read 2 .list]) (List.replicate 3 1 ++ List.replicate 30 0 ++ List.replicate 30 1) =
    some [some [], some [some (.list [([1], 1), ([2], 2)]), some (.list [([1], 7), ([2], 2)])]] := by decide +kernel

end

section
open Verif.Num Verif.NumHeap

/-- One goroutine inserts below a shared root, one deletes from it. -/
def numScript : Fin 2 → List (TOp (NumOp 32 Nat) (NumQ 32))
  | 0 => [.call (.cow 1 (.insert 0x0A010000#32 16 2)), .read 2 (.longest 0x0A010203#32 32), .read 1 (.longest 0x0A010203#32 32)]
  | 1 => [.call (.cow 1 (.delete 0x0A000000#32 8)), .read 2 (.longest 0x0A010203#32 32), .read 1 (.exact 0x0A000000#32 8)]

example : finals (numImpl 34 32 Nat).toO (numRead 34) [.fresh, .cow 0 (.insert 0x0A000000#32 8 1)] 2 numScript (turns 2 100 (by decide)) =
    some [some [some (.val (some 2)), some (.val (some 1))], some [some (.val none), some (.val (some 1))]] := by decide +kernel

example : ∀ t, (Book.init.exec [.fresh, .cow 0 (.insert 0x0A000000#32 8 1)]).LegalT (numImpl 34 32 Nat).toO.cowOk (numImpl 34 32 Nat).toO.inpOk 1 (numScript t) := by
  intro t
  match t with
  | 0 => exact ⟨⟨fun _ _ => trivial, trivial⟩, trivial⟩
  | 1 => exact ⟨⟨fun _ _ => trivial, trivial⟩, trivial⟩

end

section
open Verif.IP Verif.IPHeap

/-- One goroutine inserts an IPv6 network below a shared one, one deletes everything below 2001::/16 (which the generated packages do not, see
C48). -/
def netScript : Fin 2 → List (TOp (Op Nat) NetQ)
  | 0 => [.call (.cow 1 (.insertNet (some (net6 0x20 0x01 0 1 128)) 2)), .read 2 (.get (some (net6 0x20 0x01 0 1 128))), .read 1 (.get (some (net6 0x20 0x01 0 1 128)))]
  | 1 => [.call (.cow 1 (.deleteByNet (some (net6 0x20 0x01 0 0 16)))), .read 2 (.get (some (net6 0x20 0x01 0 1 128))), .read 1 (.get (some (net6 0x20 0x01 0 1 128)))]

example : finals (ipImpl true 66) (netRead 66) [.fresh, .cow 0 (.insertNet (some (net6 0x20 0x01 0 0 64)) 1)] 2 netScript (turns 2 200 (by decide)) =
    some [some [some (.val (some (.user 2))), some (.val (some (.user 1)))], some [some (.val none), some (.val (some (.user 1)))]] := by decide +kernel

example : ∀ t, (Book.init.exec [.fresh, .cow 0 (.insertNet (some (net6 0x20 0x01 0 0 64)) 1)]).LegalT (fun _ _ => True) (ipImpl true 66).inpOk 1 (netScript t) := by
  intro t
  match t with
  | 0 => exact ⟨⟨fun _ _ => trivial, trivial⟩, trivial⟩
  | 1 => exact ⟨⟨fun _ _ => trivial, trivial⟩, trivial⟩

end

example : finals (UIPHeap.uipImpl true 66) (unetRead 66) [.fresh, .cow 0 (.insertNet (some (net6 0x20 0x01 0 0 64)) 1)] 2 netScript (turns 2 200 (by decide)) =
    some [some [some (.val (some 2)), some (.val (some 1))], some [some (.val (some 1)), some (.val (some 1))]] := by decide +kernel

example : ∀ t, (Book.init.exec [.fresh, .cow 0 (.insertNet (some (net6 0x20 0x01 0 0 64)) 1)]).LegalT (fun _ _ => True) (UIPHeap.uipImpl true 66).inpOk 1 (netScript t) := by
  intro t
  match t with
  | 0 => exact ⟨⟨fun _ _ => trivial, trivial⟩, trivial⟩
  | 1 => exact ⟨⟨fun _ _ => trivial, trivial⟩, trivial⟩

section
open Verif.Domain Verif.DomTree Verif.DomHeap

/-- One goroutine inserts below a shared domain, one deletes it with everything below. -/
def domScript : Fin 2 → List (TOp (Op Nat) DomQ)
  | 0 => [.call (.cow 1 (.insert (nm "a.b.com") 2)), .read 2 .list, .read 1 .list]
  | 1 => [.call (.cow 1 (.deleteSub (nm "com"))), .read 2 .list, .read 1 .list]

example : finals (domImpl true 128) (domRead 128) [.fresh, .cow 0 (.insert (nm "b.com") 1)] 2 domScript (turns 2 200 (by decide)) =
    some [some [some (.list [(txt "b.com", 1), (txt "a.b.com", 2)]), some (.list [(txt "b.com", 1)])],
      some [some (.list []), some (.list [(txt "b.com", 1)])]] := by decide +kernel

example : ∀ t, (Book.init.exec [.fresh, .cow 0 (.insert (nm "b.com") 1)]).LegalT cowOk (inpOk true) 1 (domScript t) := by
  intro t
  match t with
  | 0 => exact ⟨⟨fun _ _ => ⟨⟨txt "a.b.com", by decide +kernel⟩, trivial⟩, trivial⟩, trivial⟩
  | 1 =>
    refine ⟨⟨fun _ _ => ⟨⟨txt "com", by decide +kernel⟩, fun ls hl h => ?_⟩, trivial⟩, trivial⟩
    rw [show (nm "com").labels = some [txt "COM"] by decide +kernel] at hl
    cases hl; cases h

end

section
open Verif.DL Verif.DLHeap

/-- One goroutine adds a raw label, one deletes a label by its text, one fills a tree of its own in place. -/
def labelScript : Fin 3 → List (TOp (DL.Op Nat) LabelQ)
  | 0 => [.call (.cow 1 (.rawInsert [66] 2)), .read 2 .list, .read 1 .list]
  | 1 => [.call (.cow 1 (.delete [97])), .read 2 .list, .read 1 (.raw [65])]
  | 2 => [.call .fresh, .call (.inp 2 (.rawInsert [67] 3)), .call (.inp 2 (.rawInsert [66] 4)), .read 2 .list, .read 1 .list]

example : finals (dlImpl true 20) (labelRead 20) [.fresh, .cow 0 (.insert [97] 1)] 3 labelScript (turns 3 240 (by decide)) =
    some [some [some (.list [([65], 1), ([66], 2)]), some (.list [([65], 1)])], some [some (.list []), some (.val (some 1))],
      some [some (.list [([66], 4), ([67], 3)]), some (.list [([65], 1)])]] := by decide +kernel

example : ∀ t, (Book.init.exec [.fresh, .cow 0 (.insert [97] 1)]).LegalT dlCow (dlInp true) 1 (labelScript t) := by
  intro t
  match t with
  | 0 => exact ⟨⟨fun _ _ => ⟨_, .rawInsert⟩, trivial⟩, trivial⟩
  | 1 => exact ⟨⟨fun _ _ => ⟨_, .delete (means_plain (a := 97) (dot := false) (by decide))⟩, trivial⟩, trivial⟩
  | 2 =>
    refine ⟨⟨trivial, trivial⟩, ⟨?_, ?_⟩, ⟨?_, ?_⟩, trivial⟩
    · intro v hv
      refine ⟨⟨⟨_, .rawInsert⟩, trivial, .inl rfl⟩, fun j u hj hu => ?_⟩
      simp [Book.exec, Book.init, Book.step] at hv hu
      subst hv
      rcases j with _ | _ | _ | j <;> simp at hu <;> simp [← hu] at *
    · intro v hv
      simp [Book.exec, Book.init, Book.step] at hv ⊢
      subst hv; decide
    · intro v hv
      refine ⟨⟨⟨_, .rawInsert⟩, trivial, .inl rfl⟩, fun j u hj hu => ?_⟩
      simp [Book.exec, Book.init, Book.step] at hv hu
      subst hv
      rcases j with _ | _ | _ | j <;> simp at hu <;> simp [← hu] at *
    · intro v hv
      simp [Book.exec, Book.init, Book.step] at hv ⊢
      subst hv; decide

end

end Verif.Props
