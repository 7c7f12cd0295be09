import Verif.Pipe.LockedExec
import Verif.Props.Ranging
import Verif.Props.Guarded

/-!
# Property theorems: goroutines sharing a tree under a read-write lock, with loops over Enumerate (C91)

As C87: after a history of the client one of its trees is guarded by a `sync.RWMutex`, goroutines change it with the lock for writing, in place or by replacing it, and read it with the
lock.  They may also call `Enumerate` with the lock and receive from the channels they get; `LAct.loop` is the usual loop.  All channels have to be seen closed before the lock is given
back and before the tree is changed in place: a loop has to run to its end.

`LockPromise` (`Pipe/LockedEnds.lean`) is what holds at every moment of every run.  `LockEnds` says so for runs of any length, that the other trees of the client stay as they are, and
that there is no infinite sequence of steps that change anything.  For trees whose size is not bounded by their keys the loop bound `f` of the model has to suffice: for the changes the
goroutines can make (`_ends`), or for the length of the run (`LockUpTo`).

Listings are taken to be shorter than the bound on the rounds of loops, which is a fact about the trees (`Loop.Lawful`) and not a restriction.
-/

namespace Verif.Props
open Verif Verif.Heap Verif.Pipe Prog

/-- C91 speaks about every tree of the history that shares no nodes with the other trees held, of which `J` holds.  `G` gets memory, the tree, its history, and the other trees. -/
def EachShared {D O R : Type} (I : OImpl D O R) (ops : List (SOp O)) (J : List O → Prop) (G : Heap D → R → List O → (R → List O → Prop) → Prop) : Prop :=
  ∃ s, OStore.init.exec I ops = .ok s ∧ ∀ (i : Nat) r v, s.roots[i]? = some r → (Book.init.exec ops).vs[i]? = some v → J v.2 →
    (∀ j u, j ≠ i → (Book.init.exec ops).vs[j]? = some u → u.1 ≠ v.1) → G s.heap r v.2 (OtherTrees s.roots (Book.init.exec ops).vs i)

section Numtree
open Verif.Num Verif.NumHeap
variable {w : Nat} {V : Type} [LawfulKeySize w] [Inhabited V]

/-- C91 (numtree). -/
theorem C91_numtree {f rounds : Nat} (hf : w + 2 ≤ f) (hr : 2 ^ (w + 1) ≤ rounds) (ops : List (SOp (NumOp w V)))
    (hl : (Book.init : Book (NumOp w V)).LegalAll2 (fun _ _ => True) (fun _ => (numImpl f w V).inpOk) ops)
    {T : Type} [DecidableEq T] (J : List (NumOp w V) → Prop) (act : T → LAct (NumOp w V) (NumQ w) (Reply V (ND w V)) (ND w V))
    (ha : ∀ t, (act t).Legal J (fun _ _ => True) (fun _ => (numImpl f w V).inpOk) NumRight (fun l es => NumRight .list l (.list es) ∧ es.length < rounds) .free [] []) :
    EachShared (numImpl f w V).toO ops J fun h r l others => LockEnds (numImpl f w V).toO (numRead f) (numLoop f rounds w V) NumRight (fun l es => NumRight .list l (.list es) ∧ es.length < rounds) (fun h r l => Observes f h r (lastWrite (l.map NumOp.abs))) l others act (LHub.start h r act) := by
  refine locked_sound (fun n => Impl.toO_lawful (numImpl_lawful (V := V) hf n)) ops hl (numRead f) NumRight (fun h r l => Observes f h r (lastWrite (l.map NumOp.abs))) ?_ ?_ (fun n => Loop.Lawful.short (numLoop_lawful hf hr n) fun _ _ h1 h2 => ⟨h1, h2⟩) J act ha
  · exact fun q h r l F ho => numRead_ok hf q h r l F ho
  · rintro h r l F ⟨A, rfl, a1, a2, _, _⟩
    exact observes_of_rep hf a1 a2

end Numtree

section Strtree
open Verif.RB Verif.RBHeap
variable {V : Type} [Inhabited V]

/-- C91 (strtree, runs of at most `N` steps). -/
theorem C91_strtree {cmp : Bytes → Bytes → Int} (hc : LawfulCmp cmp) {f : Nat} (ops : List (SOp (KOp Bytes V)))
    (hl : (Book.init : Book (KOp Bytes V)).LegalAll2 (fun _ _ => True) (fun _ => (rbImpl (V := V) cmp f).inpOk) ops)
    {T : Type} [DecidableEq T] (J : List (KOp Bytes V) → Prop) (act : T → LAct (KOp Bytes V) KVQ (Reply V (Bytes × V)) (Bytes × V))
    (ha : ∀ t, (act t).Legal J (fun _ _ => True) (fun _ => (rbImpl (V := V) cmp f).inpOk) (KVRight cmp) (fun l es => KVRight cmp .list l (.list es) ∧ es.length < f) .free [] []) (N : Nat) (hf : 2 * (ops.length + N) + 3 ≤ f) :
    EachShared (rbImpl cmp f).toO ops J fun h r l others => LockUpTo N (rbImpl cmp f).toO (kvRead cmp f) (strLoop f f V) (KVRight cmp) (fun l es => KVRight cmp .list l (.list es) ∧ es.length < f) (KVObserves cmp f) l others act (LHub.start h r act) := by
  refine locked_sound_upTo (n := ops.length + N) (Impl.toO_lawful (rbImpl_lawful (V := V) hc.refl hf)) ops hl (kvRead cmp f) (KVRight cmp) (KVObserves cmp f) ?_ ?_ (Loop.Lawful.short (strLoop_lawful hc hf (by omega)) fun _ _ h1 h2 => ⟨h1.1, h2⟩) J act ha N (Nat.le_refl _)
  · exact fun q h r l F hn ho => kvRead_ok hc hf q h r l F hn ho
  · exact fun h r l F hn ⟨A, e, a1, a2, _, _⟩ => e ▸ kvObserves_of_rep hc (by omega) hn a1 a2

/-- C91 (strtree, goroutines that make at most `k` changes). -/
theorem C91_strtree_ends {cmp : Bytes → Bytes → Int} (hc : LawfulCmp cmp) {f : Nat} (ops : List (SOp (KOp Bytes V)))
    (hl : (Book.init : Book (KOp Bytes V)).LegalAll2 (fun _ _ => True) (fun _ => (rbImpl (V := V) cmp f).inpOk) ops)
    {T : Type} [DecidableEq T] {ts : List T} (hts : ∀ t, t ∈ ts) (J : List (KOp Bytes V) → Prop) (act : T → LAct (KOp Bytes V) KVQ (Reply V (Bytes × V)) (Bytes × V))
    (ha : ∀ t, (act t).Legal J (fun _ _ => True) (fun _ => (rbImpl (V := V) cmp f).inpOk) (KVRight cmp) (fun l es => KVRight cmp .list l (.list es) ∧ es.length < f) .free [] []) (k : T → Nat) (hm : ∀ t, (act t).AtMost (k t)) (hf : 2 * (ops.length + (ts.map k).sum) + 3 ≤ f) :
    EachShared (rbImpl cmp f).toO ops J fun h r l others => LockEnds (rbImpl cmp f).toO (kvRead cmp f) (strLoop f f V) (KVRight cmp) (fun l es => KVRight cmp .list l (.list es) ∧ es.length < f) (KVObserves cmp f) l others act (LHub.start h r act) := by
  refine locked_sound_atMost (n := ops.length + (ts.map k).sum) (Impl.toO_lawful (rbImpl_lawful (V := V) hc.refl hf)) ops hl (kvRead cmp f) (KVRight cmp) (KVObserves cmp f) ?_ ?_ (Loop.Lawful.short (strLoop_lawful hc hf (by omega)) fun _ _ h1 h2 => ⟨h1.1, h2⟩) J hts act ha k hm (Nat.le_refl _)
  · exact fun q h r l F hn ho => kvRead_ok hc hf q h r l F hn ho
  · exact fun h r l F hn ⟨A, e, a1, a2, _, _⟩ => e ▸ kvObserves_of_rep hc (by omega) hn a1 a2

end Strtree

section Iptree
open Verif.IP Verif.IPHeap
variable {V : Type} [Inhabited V]

/-- C91 (iptree). -/
theorem C91_iptree (st : Bool) {f rounds : Nat} (hf : 66 ≤ f) (hr : 2 ^ 131 < rounds) (ops : List (SOp (Op V)))
    (hl : (Book.init : Book (Op V)).LegalAll2 (fun _ _ => True) (ipImpl st f).inpOk ops)
    {T : Type} [DecidableEq T] (J : List (Op V) → Prop) (act : T → LAct (Op V) NetQ (Reply (HV V) (IPNet × HV V)) (IPNet × HV V))
    (ha : ∀ t, (act t).Legal J (fun _ _ => True) (ipImpl st f).inpOk NetRight (fun l es => NetRight .list l (.list es) ∧ es.length < rounds) .free [] []) :
    EachShared (ipImpl st f) ops J fun h r l others => LockEnds (ipImpl st f) (netRead f) (ipLoop f rounds V) NetRight (fun l es => NetRight .list l (.list es) ∧ es.length < rounds) (NetObserves f) l others act (LHub.start h r act) := by
  refine locked_sound (fun n => ipImpl_lawful (V := V) st hf n) ops hl (netRead f) NetRight (NetObserves f) ?_ ?_ (fun n => Loop.Lawful.short (ipLoop_lawful st hf hr n) fun _ _ h1 h2 => ⟨h1, h2⟩) J act ha
  · exact fun q h r l F ho => netRead_ok hf q h r l F ho
  · rintro h r l F ⟨t, ht, hT⟩
    exact netObserves_of_rep hf hT ht

end Iptree

section UIptree
open Verif.IP Verif.UIPHeap
variable {V : Type} [Inhabited V]

/-- C91 (generated IP trees). -/
theorem C91_uiptree (st : Bool) {f rounds : Nat} (hf : 66 ≤ f) (hr : 2 ^ 131 < rounds) (ops : List (SOp (Op V)))
    (hl : (Book.init : Book (Op V)).LegalAll2 (fun _ _ => True) (uipImpl st f).inpOk ops)
    {T : Type} [DecidableEq T] (J : List (Op V) → Prop) (act : T → LAct (Op V) NetQ (Reply V (IPNet × V)) (IPNet × V))
    (ha : ∀ t, (act t).Legal J (fun _ _ => True) (uipImpl st f).inpOk UNetRight (fun l es => UNetRight .list l (.list es) ∧ es.length < rounds) .free [] []) :
    EachShared (uipImpl st f) ops J fun h r l others => LockEnds (uipImpl st f) (unetRead f) (uipLoop f rounds V) UNetRight (fun l es => UNetRight .list l (.list es) ∧ es.length < rounds) (UShows f) l others act (LHub.start h r act) := by
  refine locked_sound (fun n => uipImpl_lawful (V := V) st hf n) ops hl (unetRead f) UNetRight (UShows f) ?_ ?_ (fun n => Loop.Lawful.short (uipLoop_lawful st hf hr n) fun _ _ h1 h2 => ⟨h1, h2⟩) J act ha
  · exact fun q h r l F ho => unetRead_ok hf q h r l F ho
  · rintro h r l F ⟨t, hT, hL, _⟩
    exact uShows_of_rep hf hT hL

end UIptree

section Domaintree
open Verif.DomTree Verif.DomHeap
variable {V : Type}

/-- C91 (domaintree, runs of at most `N` steps). -/
theorem C91_domaintree (st : Bool) {f rounds : Nat} (hd : 128 ≤ f) (ops : List (SOp (Op V)))
    (hl : (Book.init : Book (Op V)).LegalAll2 cowOk (inpOk st) ops)
    {T : Type} [DecidableEq T] (J : List (Op V) → Prop) (act : T → LAct (Op V) DomQ (Reply V (Bytes × V)) (Bytes × V))
    (ha : ∀ t, (act t).Legal J cowOk (inpOk st) DomRight (fun l es => DomRight .list l (.list es) ∧ es.length < rounds) .free [] []) (N : Nat) (hf : 2 * (ops.length + N) + 3 ≤ f) (hr : (ops.length + N + 2) ^ 128 ≤ rounds) :
    EachShared (domImpl st f) ops J fun h r l others => LockUpTo N (domImpl st f) (domRead f) (domLoop f rounds V) DomRight (fun l es => DomRight .list l (.list es) ∧ es.length < rounds) (DomObserves f) l others act (LHub.start h r act) := by
  refine locked_sound_upTo (n := ops.length + N) (domImpl_lawful (V := V) st hf) ops hl (domRead f) DomRight (DomObserves f) ?_ ?_ (Loop.Lawful.short (domLoop_lawful st hf hd hr) fun _ _ h1 h2 => ⟨h1.1, h2⟩) J act ha N (Nat.le_refl _)
  · exact fun q h r l F hn ho => domRead_ok hf hd q h r l F hn ho
  · exact fun h r l F hn ho => domObserves_of_rep (by omega) hd ho

/-- C91 (domaintree, goroutines that make at most `k` changes). -/
theorem C91_domaintree_ends (st : Bool) {f rounds : Nat} (hd : 128 ≤ f) (ops : List (SOp (Op V)))
    (hl : (Book.init : Book (Op V)).LegalAll2 cowOk (inpOk st) ops)
    {T : Type} [DecidableEq T] {ts : List T} (hts : ∀ t, t ∈ ts) (J : List (Op V) → Prop) (act : T → LAct (Op V) DomQ (Reply V (Bytes × V)) (Bytes × V))
    (ha : ∀ t, (act t).Legal J cowOk (inpOk st) DomRight (fun l es => DomRight .list l (.list es) ∧ es.length < rounds) .free [] []) (k : T → Nat) (hm : ∀ t, (act t).AtMost (k t)) (hf : 2 * (ops.length + (ts.map k).sum) + 3 ≤ f) (hr : (ops.length + (ts.map k).sum + 2) ^ 128 ≤ rounds) :
    EachShared (domImpl st f) ops J fun h r l others => LockEnds (domImpl st f) (domRead f) (domLoop f rounds V) DomRight (fun l es => DomRight .list l (.list es) ∧ es.length < rounds) (DomObserves f) l others act (LHub.start h r act) := by
  refine locked_sound_atMost (n := ops.length + (ts.map k).sum) (domImpl_lawful (V := V) st hf) ops hl (domRead f) DomRight (DomObserves f) ?_ ?_ (Loop.Lawful.short (domLoop_lawful st hf hd hr) fun _ _ h1 h2 => ⟨h1.1, h2⟩) J hts act ha k hm (Nat.le_refl _)
  · exact fun q h r l F hn ho => domRead_ok hf hd q h r l F hn ho
  · exact fun h r l F hn ho => domObserves_of_rep (by omega) hd ho

end Domaintree

section Dltree
open Verif.DL Verif.DLHeap
variable {V : Type} [Inhabited V]

/-- C91 (dltree, loops over RawEnumerate, runs of at most `N` steps). -/
theorem C91_dltree_raw (st : Bool) {f : Nat} (ops : List (SOp (DL.Op V)))
    (hl : (Book.init : Book (DL.Op V)).LegalAll2 dlCow (dlInp st) ops)
    {T : Type} [DecidableEq T] (J : List (DL.Op V) → Prop) (act : T → LAct (DL.Op V) LabelQ (Reply V (Bytes × V)) (Bytes × V))
    (ha : ∀ t, (act t).Legal J dlCow (dlInp st) LabelRight (fun l es => LabelRight .list l (.list es) ∧ es.length < f) .free [] []) (N : Nat) (hf : 2 * (ops.length + N) + 3 ≤ f) :
    EachShared (dlImpl st f) ops J fun h r l others => LockUpTo N (dlImpl st f) (labelRead f) (dlRawLoop f f V) LabelRight (fun l es => LabelRight .list l (.list es) ∧ es.length < f) (DLShows f) l others act (LHub.start h r act) := by
  refine locked_sound_upTo (n := ops.length + N) (dlImpl_lawful (V := V) st hf) ops hl (labelRead f) LabelRight (DLShows f) ?_ ?_ (Loop.Lawful.short (dlRawLoop_lawful st hf (by omega)) fun _ _ h1 h2 => ⟨h1.1, h2⟩) J act ha N (Nat.le_refl _)
  · exact fun q h r l F hn ho => labelRead_ok hf q h r l F hn ho
  · exact fun h r l F hn ho => dlShows_of_obj (by omega) ho

/-- C91 (dltree, loops over RawEnumerate, goroutines that make at most `k` changes). -/
theorem C91_dltree_raw_ends (st : Bool) {f : Nat} (ops : List (SOp (DL.Op V)))
    (hl : (Book.init : Book (DL.Op V)).LegalAll2 dlCow (dlInp st) ops)
    {T : Type} [DecidableEq T] {ts : List T} (hts : ∀ t, t ∈ ts) (J : List (DL.Op V) → Prop) (act : T → LAct (DL.Op V) LabelQ (Reply V (Bytes × V)) (Bytes × V))
    (ha : ∀ t, (act t).Legal J dlCow (dlInp st) LabelRight (fun l es => LabelRight .list l (.list es) ∧ es.length < f) .free [] []) (k : T → Nat) (hm : ∀ t, (act t).AtMost (k t)) (hf : 2 * (ops.length + (ts.map k).sum) + 3 ≤ f) :
    EachShared (dlImpl st f) ops J fun h r l others => LockEnds (dlImpl st f) (labelRead f) (dlRawLoop f f V) LabelRight (fun l es => LabelRight .list l (.list es) ∧ es.length < f) (DLShows f) l others act (LHub.start h r act) := by
  refine locked_sound_atMost (n := ops.length + (ts.map k).sum) (dlImpl_lawful (V := V) st hf) ops hl (labelRead f) LabelRight (DLShows f) ?_ ?_ (Loop.Lawful.short (dlRawLoop_lawful st hf (by omega)) fun _ _ h1 h2 => ⟨h1.1, h2⟩) J hts act ha k hm (Nat.le_refl _)
  · exact fun q h r l F hn ho => labelRead_ok hf q h r l F hn ho
  · exact fun h r l F hn ho => dlShows_of_obj (by omega) ho

/-- C91 (dltree, loops over Enumerate, which needs stored labels of at most 63 bytes, runs of at most `N` steps). -/
theorem C91_dltree (st : Bool) {f : Nat} (ops : List (SOp (DL.Op V)))
    (hl : (Book.init : Book (DL.Op V)).LegalAll2 (fun l o => dlCow l o ∧ Short o) (fun l o => dlInp st l o ∧ Short o) ops)
    {T : Type} [DecidableEq T] (J : List (DL.Op V) → Prop) (act : T → LAct (DL.Op V) LabelQ (Reply V (Bytes × V)) (Bytes × V))
    (ha : ∀ t, (act t).Legal J (fun l o => dlCow l o ∧ Short o) (fun l o => dlInp st l o ∧ Short o) LabelRight (fun l es => TextRight l es ∧ es.length < f) .free [] []) (N : Nat) (hf : 2 * (ops.length + N) + 3 ≤ f) :
    EachShared (dlImpl st f) ops J fun h r l others => LockUpTo N (dlImpl st f) (labelRead f) (dlLoop f f V) LabelRight (fun l es => TextRight l es ∧ es.length < f) (DLShows f) l others act (LHub.start h r act) := by
  have main := locked_sound_upTo (n := ops.length + N) (T := T) (restrict_lawful (dlImpl_lawful (V := V) st hf)) ops hl (labelRead f) LabelRight (DLShows f) (Lp := (dlLoop f f V)) (L := (fun l es => TextRight l es ∧ es.length < f)) (fun q h r l F hn ho => labelRead_ok hf q h r l F hn ho.1) (fun h r l F hn ho => dlShows_of_obj (by omega) ho.1) (Loop.Lawful.short (dlLoop_lawful st hf (by omega)) fun _ _ h1 h2 => ⟨h1.1, h2⟩) J act ha N (Nat.le_refl _)
  simp only [restrict_exec] at main
  have e : ∀ o r, (restrict (dlImpl (V := V) st f) Short).cow o r = (dlImpl st f).cow o r ∧ (restrict (dlImpl (V := V) st f) Short).inp o r = (dlImpl st f).inp o r := fun _ _ => ⟨rfl, rfl⟩
  obtain ⟨s, hs, main⟩ := main
  refine ⟨s, hs, fun i r v hr hv hJ hx => ?_⟩
  have := main i r v hr hv hJ hx
  exact ⟨fun k s' hk hr => (this.promise k s' hk (by rw [lstep_congr e]; exact hr)).congr e, fun k s' r' l' hk hr => this.others k s' r' l' hk (by rw [lstep_congr e]; exact hr)⟩

/-- C91 (dltree, loops over Enumerate, which needs stored labels of at most 63 bytes, goroutines that make at most `k` changes). -/
theorem C91_dltree_ends (st : Bool) {f : Nat} (ops : List (SOp (DL.Op V)))
    (hl : (Book.init : Book (DL.Op V)).LegalAll2 (fun l o => dlCow l o ∧ Short o) (fun l o => dlInp st l o ∧ Short o) ops)
    {T : Type} [DecidableEq T] {ts : List T} (hts : ∀ t, t ∈ ts) (J : List (DL.Op V) → Prop) (act : T → LAct (DL.Op V) LabelQ (Reply V (Bytes × V)) (Bytes × V))
    (ha : ∀ t, (act t).Legal J (fun l o => dlCow l o ∧ Short o) (fun l o => dlInp st l o ∧ Short o) LabelRight (fun l es => TextRight l es ∧ es.length < f) .free [] []) (k : T → Nat) (hm : ∀ t, (act t).AtMost (k t)) (hf : 2 * (ops.length + (ts.map k).sum) + 3 ≤ f) :
    EachShared (dlImpl st f) ops J fun h r l others => LockEnds (dlImpl st f) (labelRead f) (dlLoop f f V) LabelRight (fun l es => TextRight l es ∧ es.length < f) (DLShows f) l others act (LHub.start h r act) := by
  have main := locked_sound_atMost (n := ops.length + (ts.map k).sum) (T := T) (restrict_lawful (dlImpl_lawful (V := V) st hf)) ops hl (labelRead f) LabelRight (DLShows f) (Lp := (dlLoop f f V)) (L := (fun l es => TextRight l es ∧ es.length < f)) (fun q h r l F hn ho => labelRead_ok hf q h r l F hn ho.1) (fun h r l F hn ho => dlShows_of_obj (by omega) ho.1) (Loop.Lawful.short (dlLoop_lawful st hf (by omega)) fun _ _ h1 h2 => ⟨h1.1, h2⟩) J hts act ha k hm (Nat.le_refl _)
  simp only [restrict_exec] at main
  have e : ∀ o r, (restrict (dlImpl (V := V) st f) Short).cow o r = (dlImpl st f).cow o r ∧ (restrict (dlImpl (V := V) st f) Short).inp o r = (dlImpl st f).inp o r := fun _ _ => ⟨rfl, rfl⟩
  obtain ⟨s, hs, main⟩ := main
  refine ⟨s, hs, fun i r v hr hv hJ hx => ?_⟩
  have := main i r v hr hv hJ hx
  refine ⟨fun k s' hr => (this.promise k s' (by rw [lstep_congr e]; exact hr)).congr e, fun k s' r' l' hr => this.others k s' r' l' (by rw [lstep_congr e]; exact hr),
    fun ts hts σ h hm => this.ends ts hts σ h fun i => ?_⟩
  have := hm i
  unfold LMove at this ⊢
  rw [lstep_congr e]; exact this

end Dltree

/-! ## Concrete cases -/

/-- After a history, with the `i`-th tree shared, and some turns. -/
def lockEnd {D O R K A B E : Type} (I : OImpl D O R) (Rd : K → R → Prog D A) (Lp : Loop D R B E) (ops : List (SOp O)) (i n : Nat) (act : Fin n → LAct O K A E)
    (sched : List (Fin n × Nat)) : Option (LHub D (Fin n) O R K A B E) :=
  match OStore.init.exec I ops with
  | .ok s => (s.roots[i]?).map fun r => (LHub.start s.heap r act).turns I Rd Lp sched
  | .error _ => none

/-- For every goroutine what it has seen (`out`), if it has come to its end. -/
def lockFinals {D O R K A B E X : Type} (I : OImpl D O R) (Rd : K → R → Prog D A) (Lp : Loop D R B E) (ops : List (SOp O)) (i n : Nat) (act : Fin n → LAct O K A E)
    (out : Fin n → List (LEvent (Fin n) O K A E) → X) (sched : List (Fin n × Nat)) : Option (List (Option X)) :=
  (lockEnd I Rd Lp ops i n act sched).map fun e => (List.finRange n).map fun t => if e.over t then some (out t e.log) else none

/-- Goroutine `t` is the first to get the lock, and `u` tries, too. -/
def lockTurns (t u : Fin 2) (m n : Nat) : List (Fin 2 × Nat) :=
  [(t, 0), (u, 0)] ++ (List.replicate m [(t, 0), (t, 0), (t, 0), (t, 1), (t, 2)]).flatten ++ (List.replicate n [(u, 0), (u, 0), (u, 0), (u, 1), (u, 2)]).flatten

theorem ended_of_over {D O R K A B E : Type} {n : Nat} {s : LHub D (Fin n) O R K A B E} {t : Fin n} (h : s.over t = true) : s.ended t := by
  unfold LHub.over at h
  split at h
  · assumption
  · cases h

section
open Verif.RB Verif.RBHeap

/-- A strtree with two keys. -/
def kvPair : List (SOp (KOp Bytes Nat)) := [.fresh, .inp 0 (.insert [1] 1), .inp 0 (.insert [2] 2)]

example : (Book.init : Book (KOp Bytes Nat)).LegalAll2 (fun _ _ => True) (fun _ => (rbImpl (V := Nat) compareBytes 1000).inpOk) kvPair := by
  refine ⟨trivial, fun v hv => ⟨trivial, ?_⟩, fun v hv => ⟨trivial, ?_⟩, trivial⟩ <;> (intro j u hj hu; match j with | 0 => exact absurd rfl hj | j + 1 => cases hu)

/-- With the lock for reading: loop over the tree and look every key up again. -/
def kvLook (n : Nat) : LAct (KOp Bytes Nat) KVQ (Reply Nat (Bytes × Nat)) (Bytes × Nat) :=
  .rlock (.range (LAct.loop 0 (fun e c => .read (.get e.1) fun _ => c) (.runlock .done) n))

/-- With the lock for writing: loop over the tree and for every entry put one with a longer key in the tree, copy-on-write; afterwards insert key 5 in place. -/
def kvDouble (n : Nat) : LAct (KOp Bytes Nat) KVQ (Reply Nat (Bytes × Nat)) (Bytes × Nat) :=
  .lock (.range (LAct.loop 0 (fun e c => .change true (.insert (e.1 ++ [7]) (e.2 + 10)) c) (.change false (.insert [5] 5) (.unlock .done)) n))

def kvLockers (n : Nat) : Fin 2 → LAct (KOp Bytes Nat) KVQ (Reply Nat (Bytes × Nat)) (Bytes × Nat)
  | 0 => kvLook n
  | 1 => kvDouble n

/-- The values received. -/
def lockGot {n : Nat} {O K A : Type} (t : Fin n) (es : List (LEvent (Fin n) O K A (Bytes × Nat))) : List (Option Nat) := (receivedUnder t es).map (·.map (·.2))

/-- Goroutine 0 sees the two entries of the tree as it was. -/
example : lockFinals (rbImpl compareBytes 1000).toO (kvRead compareBytes 1000) (strLoop 1000 1000 Nat) kvPair 0 2 (kvLockers 1000) lockGot (lockTurns 0 1 8 52) =
    some [some [some 1, some 2, none], some [some 1, some 2, none]] := by decide +kernel

/-- If goroutine 1 gets the lock first, goroutine 0 sees what it made. -/
example : lockFinals (rbImpl compareBytes 1000).toO (kvRead compareBytes 1000) (strLoop 1000 1000 Nat) kvPair 0 2 (kvLockers 1000) lockGot (lockTurns 1 0 52 17) =
    some [some [some 1, some 11, some 2, some 12, some 5, none], some [some 1, some 2, none]] := by decide +kernel

example (n : Nat) (hn : 1000 ≤ n) (t : Fin 2) : (kvLockers n t).Legal (fun _ => True) (fun _ _ => True) (fun _ => (rbImpl (V := Nat) compareBytes 1000).inpOk) (KVRight compareBytes)
    (fun l es => KVRight compareBytes .list l (.list es) ∧ es.length < 1000) .free [] [] := by
  match t with
  | 0 =>
    refine ⟨rfl, fun l _ => ⟨(fun h => by cases h), fun es he => ?_⟩⟩
    refine LAct.Legal.loop (qs := [none]) (fun h => by cases h) (fun _ => True) ?_ ?_ (Nat.lt_succ_self 0) (by omega) trivial
    · exact fun e c l qs _ hc => ⟨(fun h => by cases h), fun _ _ => hc _ trivial⟩
    · exact fun l _ => ⟨rfl, by simp, rfl⟩
  | 1 =>
    refine ⟨rfl, fun l _ => ⟨(fun h => by cases h), fun es he => ?_⟩⟩
    refine LAct.Legal.loop (qs := [none]) (fun h => by cases h) (fun _ => True) ?_ ?_ (Nat.lt_succ_self 0) (by omega) trivial
    · exact fun e c l qs _ hc => ⟨rfl, trivial, hc _ trivial⟩
    · exact fun l _ => ⟨rfl, ⟨trivial, by simp⟩, rfl, trivial, by simp, rfl⟩

example (n : Nat) : (kvLook n).AtMost 0 := by
  simp only [kvLook, LAct.AtMost]
  induction n with
  | zero => trivial
  | succ n ih =>
    rintro (_ | e)
    · trivial
    · exact fun _ => ih

end

/-- Goroutine 0 loops over the tree twice at a time with the lock for reading, goroutine 1 changes the tree with the lock for writing and lists it then. -/
def pairLockers {O K A E : Type} (n : Nat) (cow : Bool) (o : O) : Fin 2 → LAct O K A E
  | 0 => .rlock (.range (.range (LAct.loop 0 (fun _ c => c) (LAct.loop 1 (fun _ c => c) (.runlock .done) n) n)))
  | 1 => .lock (.change cow o (.range (LAct.loop 0 (fun _ c => c) (.unlock .done) n)))

/-- It is covered, for every kind of tree. -/
theorem pairLockers_legal {O K A E : Type} {ok iok : List O → O → Prop} {P : K → List O → A → Prop} {L : List O → List E → Prop} {n : Nat} {cow : Bool} {o : O}
    (ho : ∀ l, bif cow then ok l o else iok l o) (t : Fin 2) : (pairLockers n cow o t).Legal (fun _ => True) ok iok P (fun l es => L l es ∧ es.length < n) .free [] [] := by
  match t with
  | 0 =>
    refine ⟨rfl, fun l _ => ⟨(fun h => by cases h), fun es he => ⟨(fun h => by cases h), fun fs hf => ?_⟩⟩⟩
    refine LAct.Legal.loop (qs := [none, some fs]) (fun h => by cases h) (fun _ => True) (fun e c l qs _ hc => hc _ trivial) ?_ (by simp) he.2 trivial
    intro l _
    refine LAct.Legal.loop (qs := [none, none]) (fun h => by cases h) (fun _ => True) (fun e c l qs _ hc => hc _ trivial) ?_ (by simp) hf.2 trivial
    exact fun l _ => ⟨rfl, by simp, rfl⟩
  | 1 =>
    refine ⟨rfl, fun l _ => ⟨rfl, ?_, (fun h => by cases h), fun es he => ?_⟩⟩
    · have := ho l
      cases cow with
      | true => exact this
      | false => exact ⟨this, fun q hq => by cases hq⟩
    · refine LAct.Legal.loop (qs := [none]) (fun h => by cases h) (fun _ => True) (fun e c l qs _ hc => hc _ trivial) ?_ (Nat.lt_succ_self 0) he.2 trivial
      exact fun l _ => ⟨rfl, trivial, by simp, rfl⟩

/-- Goroutine 1 makes one change. -/
theorem pairLockers_atMost {O K A E : Type} {n : Nat} {cow : Bool} {o : O} (t : Fin 2) : (pairLockers n cow o t : LAct O K A E).AtMost t.val := by
  have key : ∀ (m ch : Nat) (k : LAct O K A E), k.AtMost 0 → (LAct.loop ch (fun _ c => c) k m).AtMost 0 := by
    intro m ch k hk
    induction m with
    | zero => trivial
    | succ m ih =>
      rintro (_ | e)
      · exact hk
      · exact ih
  match t with
  | 0 => exact key _ _ _ (key _ _ _ trivial)
  | 1 => exact ⟨0, rfl, key _ _ _ trivial⟩

/-- Keep the third tree only. -/
def thirdOnly {O : Type} (ops : List (SOp O)) : List (SOp O) := ops ++ [.drop 0, .drop 0]

section
open Verif.Num Verif.NumHeap

example (t : Fin 2) : (pairLockers (2 ^ 33) false (.insert 0x0B000000#32 8 3) t).Legal (fun _ => True) (fun _ _ => True) (fun _ => (numImpl 34 32 Nat).inpOk) NumRight
    (fun l es => NumRight .list l (.list es) ∧ es.length < 2 ^ 33) .free [] [] := pairLockers_legal (fun _ => by trivial) t

/-- The tree is not shared with others, and it is the first one. -/
example : ((Book.init : Book (NumOp 32 Nat)).exec (thirdOnly numTwo)).vs.length = 1 := rfl

example : lockFinals (numImpl 34 32 Nat).toO (numRead 34) (numLoop 34 (2 ^ 33) 32 Nat) (thirdOnly numTwo) 0 2 (pairLockers (2 ^ 33) false (.insert 0x0B000000#32 8 3))
    (fun t es => (receivedUnder t es).map (·.map (·.value))) (lockTurns 0 1 12 16) =
      some [some [some 1, some 2, none, some 1, some 2, none], some [some 1, some 2, some 3, none]] := by decide +kernel

example : lockFinals (numImpl 34 32 Nat).toO (numRead 34) (numLoop 34 (2 ^ 33) 32 Nat) (thirdOnly numTwo) 0 2 (pairLockers (2 ^ 33) false (.insert 0x0B000000#32 8 3))
    (fun t es => (receivedUnder t es).map (·.map (·.value))) (lockTurns 1 0 16 22) =
      some [some [some 1, some 2, some 3, none, some 1, some 2, some 3, none], some [some 1, some 2, some 3, none]] := by decide +kernel

/-- Not covered: goroutine 0 leaves its loop after one entry and gives the lock back, goroutine 1 inserts in place. -/
def numLeaving : Fin 2 → LAct (NumOp 32 Nat) (NumQ 32) (Reply Nat (ND 32 Nat)) (ND 32 Nat)
  | 0 => .rlock (.range (.next 0 fun _ => .runlock .done))
  | 1 => .lock (.change false (.insert 0x0A800000#32 16 3) (.unlock .done))

/-- The node goroutine 1 is about to write is one that a goroutine behind the channels of goroutine 0 is about to read. -/
def lockRacing {D O R K A B E : Type} (s : LHub D (Fin 2) O R K A B E) : Bool := match s.writes 1 with
  | some a => (s.th 0).chans.any fun | .mk (.read a' _) _ => a == a' | _ => false
  | none => false

theorem lockRacing_eq {D O R K A B E : Type} {s : LHub D (Fin 2) O R K A B E} (h : lockRacing s = true) : ∃ a, s.writes 1 = some a ∧ ∃ p ∈ (s.th 0).chans, p.AtRead a := by
  unfold lockRacing at h
  split at h
  · rename_i a e
    rw [List.any_eq_true] at h
    obtain ⟨p, hp, h⟩ := h
    refine ⟨a, e, p, hp, ?_⟩
    split at h
    · have := LawfulBEq.eq_of_beq h
      subst this
      exact .here
    · cases h
  · cases h

/-- Goroutine 0 comes to its end, then goroutine 1 begins. -/
def leavingTurns : List (Fin 2 × Nat) := [(0, 0), (0, 0), (0, 1)] ++ List.replicate 4 (0, 0) ++ List.replicate 5 (1, 0)

/-- C91, why loops have to run to their end: leaving a loop early leaves a goroutine behind which the lock does not stop; it reads the tree while somebody with the lock writes it. -/
theorem C91_leaving_race : ∃ s r, OStore.init.exec (numImpl 34 32 Nat).toO (thirdOnly numTwo) = .ok s ∧ s.roots[0]? = some r ∧
    ∃ k s', Spec.Runs (LStep (numImpl 34 32 Nat).toO (numRead 34) (numLoop 34 (2 ^ 33) 32 Nat)) k (LHub.start s.heap r numLeaving) s' ∧
      s'.ended 0 ∧ s'.writer = some 1 ∧ ∃ a, s'.writes 1 = some a ∧ ∃ p ∈ (s'.th 0).chans, p.AtRead a := by
  refine ⟨_, _, rfl, rfl, ?_⟩
  obtain ⟨k, hk⟩ := LHub.turns_runs (numImpl 34 32 Nat).toO (numRead 34) (numLoop 34 (2 ^ 33) 32 Nat) leavingTurns (.refl (LHub.start _ _ numLeaving))
  exact ⟨k, _, hk, ended_of_over (by decide +kernel), by decide +kernel, lockRacing_eq (by decide +kernel)⟩

end

section
open Verif.RB Verif.RBHeap

/-- A strtree with three keys. -/
def kvThree : List (SOp (KOp Bytes Nat)) := kvPair ++ [.inp 0 (.insert [3] 3)]

/-- Not covered: goroutine 0 gives the lock back before its loop, goroutine 1 sets key 1 and then key 3 in place. -/
def kvEarly : Fin 2 → LAct (KOp Bytes Nat) KVQ (Reply Nat (Bytes × Nat)) (Bytes × Nat)
  | 0 => .rlock (.range (.runlock (LAct.loop 0 (fun _ c => c) .done 10)))
  | 1 => .lock (.change false (.insert [1] 10) (.change false (.insert [3] 30) (.unlock .done)))

/-- Goroutine 0 receives one entry, then goroutine 1 does its work. -/
def kvEarlyTurns : List (Fin 2 × Nat) :=
  (List.replicate 8 [(0, 0), (0, 1)]).flatten ++ List.replicate 60 (1, 0) ++ (List.replicate 30 [(0, 0), (0, 1)]).flatten

/-- What went into the tree at the start and by goroutine 1, the latest first. -/
def kvEarlyOps : List (KOp Bytes Nat) := [.insert [3] 30, .insert [1] 10, .insert [3] 3, .insert [2] 2, .insert [1] 1]

/-- C91, why receiving needs the lock: goroutine 0, which calls `Enumerate` with the lock but receives without it, gets a listing which the tree never had. -/
theorem C91_mixed_listing : ∃ s r, OStore.init.exec (rbImpl compareBytes 1000).toO kvThree = .ok s ∧ s.roots[0]? = some r ∧
    ∃ k s', Spec.Runs (LStep (rbImpl compareBytes 1000).toO (kvRead compareBytes 1000) (strLoop 1000 1000 Nat)) k (LHub.start s.heap r kvEarly) s' ∧
      s'.ended 0 ∧ receivedUnder 0 s'.log = [some ([1], 1), some ([2], 2), some ([3], 30), none] ∧
      ∀ n, n ≤ 2 → ¬ KVRight compareBytes .list (kvEarlyOps.drop n) (.list [([1], 1), ([2], 2), ([3], 30)]) := by
  refine ⟨_, _, rfl, rfl, ?_⟩
  obtain ⟨k, hk⟩ := LHub.turns_runs (rbImpl compareBytes 1000).toO (kvRead compareBytes 1000) (strLoop 1000 1000 Nat) kvEarlyTurns (.refl (LHub.start _ _ kvEarly))
  refine ⟨k, _, hk, ended_of_over (by decide +kernel), by decide +kernel, fun n hn hr => ?_⟩
  obtain ⟨l, e, -, h⟩ := hr
  cases e
  match n, hn with
  | 0, _ => have := ((h [1] 1).1 (by simp)).2; revert this; decide +kernel
  | 1, _ => have := ((h [1] 1).1 (by simp)).2; revert this; decide +kernel
  | 2, _ => have := ((h [3] 30).1 (by simp)).2; revert this; decide +kernel
end

section
open Verif.IP Verif.IPHeap

example (t : Fin 2) : (pairLockers (2 ^ 132) true (.insertNet (some ⟨[11, 0, 0, 0], [255, 0, 0, 0]⟩) 3) t).Legal (fun _ => True) (fun _ _ => True) (ipImpl (V := Nat) true 66).inpOk NetRight
    (fun l es => NetRight .list l (.list es) ∧ es.length < 2 ^ 132) .free [] [] := pairLockers_legal (cow := true) (ok := fun _ _ => True) (fun _ => trivial) t

example (t : Fin 2) : (pairLockers (2 ^ 132) false (.insertNet (some ⟨[11, 0, 0, 0], [255, 0, 0, 0]⟩) 3) t).Legal (fun _ => True) (fun _ _ => True) (UIPHeap.uipImpl (V := Nat) true 66).inpOk
    UNetRight (fun l es => UNetRight .list l (.list es) ∧ es.length < 2 ^ 132) .free [] [] :=
  pairLockers_legal (cow := false) (iok := (UIPHeap.uipImpl (V := Nat) true 66).inpOk) (fun _ => ⟨rfl, by trivial⟩) t

example : (lockFinals (ipImpl true 66) (netRead 66) (ipLoop 66 (2 ^ 132) Nat) (thirdOnly netTwo) 0 2 (pairLockers (2 ^ 132) true (.insertNet (some ⟨[11, 0, 0, 0], [255, 0, 0, 0]⟩) 3))
    (fun t es => (receivedUnder t es).map (·.map (·.1.ip.head?))) (lockTurns 1 0 36 56)) =
      some [some [some (some 10), some (some 11), some (some 32), none, some (some 10), some (some 11), some (some 32), none], some [some (some 10), some (some 11), some (some 32), none]] := by
  decide +kernel

example : (lockFinals (UIPHeap.uipImpl true 66) (unetRead 66) (uipLoop 66 (2 ^ 132) Nat) (thirdOnly netTwo) 0 2
    (pairLockers (2 ^ 132) false (.insertNet (some ⟨[11, 0, 0, 0], [255, 0, 0, 0]⟩) 3)) (fun t es => (receivedUnder t es).map (·.map (·.2))) (lockTurns 1 0 37 58)) =
      some [some [some 2, some 3, some 1, none, some 2, some 3, some 1, none], some [some 2, some 3, some 1, none]] := by decide +kernel

end

section
open Verif.Domain Verif.DomTree Verif.DomHeap

example (rounds : Nat) (t : Fin 2) : (pairLockers rounds false (.inplace (nm "org") 3) t).Legal (fun _ => True) cowOk (inpOk true) DomRight
    (fun l es => DomRight .list l (.list es) ∧ es.length < rounds) .free [] [] := by
  refine pairLockers_legal (cow := false) (iok := inpOk true) (fun l => ?_) t
  refine ⟨⟨txt "org", show MakeNameFromString (txt "org") = .ok (nm "org") by decide +kernel⟩, .inl rfl, fun ls hls q h1 h2 h3 => ?_⟩
  have e : (nm "org").labels = some [txt "ORG"] := by decide +kernel
  rw [e] at hls
  cases hls
  rcases List.prefix_cons_iff.1 h2 with rfl | ⟨t, rfl, ht⟩
  · exact absurd rfl h1
  · exact absurd (by rw [List.prefix_nil.1 ht]) h3

example : (lockFinals (domImpl true 128) (domRead 128) (domLoop 128 128 Nat) (thirdOnly domTwo) 0 2 (pairLockers 128 false (.inplace (nm "org") 3))
    (fun t es => (receivedUnder t es).map (·.map (·.2))) (lockTurns 1 0 52 70)) = some [some [some 1, some 2, some 3, none, some 1, some 2, some 3, none], some [some 1, some 2, some 3, none]] := by
  decide +kernel

end

section
open Verif.DL Verif.DLHeap

example (f : Nat) (t : Fin 2) : (pairLockers f false (.rawInsert [65] 3 : DL.Op Nat) t).Legal (fun _ => True) dlCow (dlInp true) LabelRight
    (fun l es => LabelRight .list l (.list es) ∧ es.length < f) .free [] [] :=
  pairLockers_legal (cow := false) (iok := dlInp true) (fun _ => ⟨⟨_, .rawInsert⟩, trivial, .inl rfl⟩) t

example (f : Nat) (t : Fin 2) : (pairLockers f true (.rawDelete [65] : DL.Op Nat) t).Legal (fun _ => True) (fun l o => dlCow l o ∧ Short o) (fun l o => dlInp true l o ∧ Short o) LabelRight
    (fun l es => TextRight l es ∧ es.length < f) .free [] [] :=
  pairLockers_legal (cow := true) (ok := fun l o => dlCow l o ∧ Short o) (fun _ => ⟨⟨_, .rawDelete⟩, fun l v h => by cases h⟩) t

example : (lockFinals (dlImpl true 200) (labelRead 200) (dlRawLoop 200 200 Nat) (thirdOnly labelTwo) 0 2 (pairLockers 200 false (.rawInsert [65] 3))
    (fun t es => (receivedUnder t es).map (·.map (·.2))) (lockTurns 1 0 30 30)) = some [some [some 3, some 2, none, some 3, some 2, none], some [some 3, some 2, none]] := by decide +kernel

example : (lockFinals (dlImpl true 200) (labelRead 200) (dlLoop 200 200 Nat) (thirdOnly labelTwo) 0 2 (pairLockers 200 true (.rawDelete [65]))
    (fun t es => (receivedUnder t es).map (·.map (·.2))) (lockTurns 1 0 20 6)) = some [some [some 2, none, some 2, none], some [some 2, none]] := by decide +kernel

end

end Verif.Props
