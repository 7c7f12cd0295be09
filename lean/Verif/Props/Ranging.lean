import Verif.Pipe.RangingExec
import Verif.Props.Leave
import Verif.Props.Fair

/-!
# Property theorems: goroutines sharing a variable, with loops over Enumerate (C90)

As C81: a variable holds the current tree, a lock protects changes of it.  Goroutines may also call `Enumerate` on the trees they hold and receive from the channels they get, in any
order; `RAct.loop` is the usual loop, which may be left early.

`RangePromise` (`Pipe/RangingEnds.lean`) is what holds at every moment of every run.  `RangeEnds` says so for runs of any length, and that there is no infinite sequence of steps that
change anything.  For trees whose size is not bounded by their keys the loop bound `f` of the model has to suffice: for the calls the goroutines can make (`_ends`), or for the length of
the run (`RangeUpTo`).

Listings are taken to be shorter than the bound on the rounds of loops, which is a fact about the trees (`Loop.Lawful`) and not a restriction.
-/

namespace Verif.Props
open Verif Verif.Heap Verif.Pipe Prog

section Numtree
open Verif.Num Verif.NumHeap
variable {w : Nat} {V : Type} [LawfulKeySize w] [Inhabited V]

/-- C90 (numtree). -/
theorem C90_numtree {f rounds : Nat} (hf : w + 2 ≤ f) (hr : 2 ^ (w + 1) ≤ rounds) (ops : List (SOp (NumOp w V)))
    (hl : (Book.init : Book (NumOp w V)).LegalAll2 (fun _ _ => True) (fun _ => (numImpl f w V).inpOk) ops)
    {T : Type} [DecidableEq T] (act : T → RAct (NumOp w V) (NumQ w) (Reply V (ND w V)) (ND w V))
    (ha : ∀ t, (act t).Legal (fun _ _ => True) (fun _ => (numImpl f w V).inpOk) NumRight (fun l es => NumRight .list l (.list es) ∧ es.length < rounds) false ⟨1, []⟩ [] []) :
    EachRoot (numImpl f w V).toO ops fun h r l => RangeEnds (numImpl f w V).toO (numRead f) (numLoop f rounds w V) NumRight (fun l es => NumRight .list l (.list es) ∧ es.length < rounds) (fun h r l => Observes f h r (lastWrite (l.map NumOp.abs))) l act (RHub.start h r act) := by
  refine ranging_sound (fun n => Impl.toO_lawful (numImpl_lawful (V := V) hf n)) ops hl (numRead f) NumRight (fun h r l => Observes f h r (lastWrite (l.map NumOp.abs))) ?_ ?_ (fun n => Loop.Lawful.short (numLoop_lawful hf hr n) fun _ _ h1 h2 => ⟨h1, h2⟩) act ha
  · exact fun q h r l F ho => numRead_ok hf q h r l F ho
  · rintro h r l F ⟨A, rfl, a1, a2, _, _⟩
    exact observes_of_rep hf a1 a2

end Numtree

section Strtree
open Verif.RB Verif.RBHeap
variable {V : Type} [Inhabited V]

/-- C90 (strtree, runs of at most `N` steps). -/
theorem C90_strtree {cmp : Bytes → Bytes → Int} (hc : LawfulCmp cmp) {f : Nat} (ops : List (SOp (KOp Bytes V)))
    (hl : (Book.init : Book (KOp Bytes V)).LegalAll2 (fun _ _ => True) (fun _ => (rbImpl (V := V) cmp f).inpOk) ops)
    {T : Type} [DecidableEq T] (act : T → RAct (KOp Bytes V) KVQ (Reply V (Bytes × V)) (Bytes × V))
    (ha : ∀ t, (act t).Legal (fun _ _ => True) (fun _ => (rbImpl (V := V) cmp f).inpOk) (KVRight cmp) (fun l es => KVRight cmp .list l (.list es) ∧ es.length < f) false ⟨1, []⟩ [] []) (N : Nat) (hf : 2 * (ops.length + N) + 3 ≤ f) :
    EachRoot (rbImpl cmp f).toO ops fun h r l => RangeUpTo N (rbImpl cmp f).toO (kvRead cmp f) (strLoop f f V) (KVRight cmp) (fun l es => KVRight cmp .list l (.list es) ∧ es.length < f) (KVObserves cmp f) l act (RHub.start h r act) := by
  refine ranging_sound_upTo (n := ops.length + N) (Impl.toO_lawful (rbImpl_lawful (V := V) hc.refl hf)) ops hl (kvRead cmp f) (KVRight cmp) (KVObserves cmp f) ?_ ?_ (Loop.Lawful.short (strLoop_lawful hc hf (by omega)) fun _ _ h1 h2 => ⟨h1.1, h2⟩) act ha N (Nat.le_refl _)
  · exact fun q h r l F hn ho => kvRead_ok hc hf q h r l F hn ho
  · exact fun h r l F hn ⟨A, e, a1, a2, _, _⟩ => e ▸ kvObserves_of_rep hc (by omega) hn a1 a2

/-- C90 (strtree, goroutines that make at most `k` calls). -/
theorem C90_strtree_ends {cmp : Bytes → Bytes → Int} (hc : LawfulCmp cmp) {f : Nat} (ops : List (SOp (KOp Bytes V)))
    (hl : (Book.init : Book (KOp Bytes V)).LegalAll2 (fun _ _ => True) (fun _ => (rbImpl (V := V) cmp f).inpOk) ops)
    {T : Type} [DecidableEq T] {ts : List T} (hts : ∀ t, t ∈ ts) (act : T → RAct (KOp Bytes V) KVQ (Reply V (Bytes × V)) (Bytes × V))
    (ha : ∀ t, (act t).Legal (fun _ _ => True) (fun _ => (rbImpl (V := V) cmp f).inpOk) (KVRight cmp) (fun l es => KVRight cmp .list l (.list es) ∧ es.length < f) false ⟨1, []⟩ [] []) (k : T → Nat) (hm : ∀ t, (act t).AtMost (k t)) (hf : 2 * (ops.length + (ts.map k).sum) + 3 ≤ f) :
    EachRoot (rbImpl cmp f).toO ops fun h r l => RangeEnds (rbImpl cmp f).toO (kvRead cmp f) (strLoop f f V) (KVRight cmp) (fun l es => KVRight cmp .list l (.list es) ∧ es.length < f) (KVObserves cmp f) l act (RHub.start h r act) := by
  refine ranging_sound_atMost (n := ops.length + (ts.map k).sum) (Impl.toO_lawful (rbImpl_lawful (V := V) hc.refl hf)) ops hl (kvRead cmp f) (KVRight cmp) (KVObserves cmp f) ?_ ?_ (Loop.Lawful.short (strLoop_lawful hc hf (by omega)) fun _ _ h1 h2 => ⟨h1.1, h2⟩) hts act ha k hm (Nat.le_refl _)
  · exact fun q h r l F hn ho => kvRead_ok hc hf q h r l F hn ho
  · exact fun h r l F hn ⟨A, e, a1, a2, _, _⟩ => e ▸ kvObserves_of_rep hc (by omega) hn a1 a2

end Strtree

section Iptree
open Verif.IP Verif.IPHeap
variable {V : Type} [Inhabited V]

/-- C90 (iptree). -/
theorem C90_iptree (st : Bool) {f rounds : Nat} (hf : 66 ≤ f) (hr : 2 ^ 131 < rounds) (ops : List (SOp (Op V)))
    (hl : (Book.init : Book (Op V)).LegalAll2 (fun _ _ => True) (ipImpl st f).inpOk ops)
    {T : Type} [DecidableEq T] (act : T → RAct (Op V) NetQ (Reply (HV V) (IPNet × HV V)) (IPNet × HV V))
    (ha : ∀ t, (act t).Legal (fun _ _ => True) (ipImpl st f).inpOk NetRight (fun l es => NetRight .list l (.list es) ∧ es.length < rounds) false ⟨1, []⟩ [] []) :
    EachRoot (ipImpl st f) ops fun h r l => RangeEnds (ipImpl st f) (netRead f) (ipLoop f rounds V) NetRight (fun l es => NetRight .list l (.list es) ∧ es.length < rounds) (NetObserves f) l act (RHub.start h r act) := by
  refine ranging_sound (fun n => ipImpl_lawful (V := V) st hf n) ops hl (netRead f) NetRight (NetObserves f) ?_ ?_ (fun n => Loop.Lawful.short (ipLoop_lawful st hf hr n) fun _ _ h1 h2 => ⟨h1, h2⟩) act ha
  · exact fun q h r l F ho => netRead_ok hf q h r l F ho
  · rintro h r l F ⟨t, ht, hT⟩
    exact netObserves_of_rep hf hT ht

end Iptree

section UIptree
open Verif.IP Verif.UIPHeap
variable {V : Type} [Inhabited V]

/-- C90 (generated IP trees). -/
theorem C90_uiptree (st : Bool) {f rounds : Nat} (hf : 66 ≤ f) (hr : 2 ^ 131 < rounds) (ops : List (SOp (Op V)))
    (hl : (Book.init : Book (Op V)).LegalAll2 (fun _ _ => True) (uipImpl st f).inpOk ops)
    {T : Type} [DecidableEq T] (act : T → RAct (Op V) NetQ (Reply V (IPNet × V)) (IPNet × V))
    (ha : ∀ t, (act t).Legal (fun _ _ => True) (uipImpl st f).inpOk UNetRight (fun l es => UNetRight .list l (.list es) ∧ es.length < rounds) false ⟨1, []⟩ [] []) :
    EachRoot (uipImpl st f) ops fun h r l => RangeEnds (uipImpl st f) (unetRead f) (uipLoop f rounds V) UNetRight (fun l es => UNetRight .list l (.list es) ∧ es.length < rounds) (UShows f) l act (RHub.start h r act) := by
  refine ranging_sound (fun n => uipImpl_lawful (V := V) st hf n) ops hl (unetRead f) UNetRight (UShows f) ?_ ?_ (fun n => Loop.Lawful.short (uipLoop_lawful st hf hr n) fun _ _ h1 h2 => ⟨h1, h2⟩) act ha
  · exact fun q h r l F ho => unetRead_ok hf q h r l F ho
  · rintro h r l F ⟨t, hT, hL, _⟩
    exact uShows_of_rep hf hT hL

end UIptree

section Domaintree
open Verif.DomTree Verif.DomHeap
variable {V : Type}

/-- C90 (domaintree, runs of at most `N` steps). -/
theorem C90_domaintree (st : Bool) {f rounds : Nat} (hd : 128 ≤ f) (ops : List (SOp (Op V)))
    (hl : (Book.init : Book (Op V)).LegalAll2 cowOk (inpOk st) ops)
    {T : Type} [DecidableEq T] (act : T → RAct (Op V) DomQ (Reply V (Bytes × V)) (Bytes × V))
    (ha : ∀ t, (act t).Legal cowOk (inpOk st) DomRight (fun l es => DomRight .list l (.list es) ∧ es.length < rounds) false ⟨1, []⟩ [] []) (N : Nat) (hf : 2 * (ops.length + N) + 3 ≤ f) (hr : (ops.length + N + 2) ^ 128 ≤ rounds) :
    EachRoot (domImpl st f) ops fun h r l => RangeUpTo N (domImpl st f) (domRead f) (domLoop f rounds V) DomRight (fun l es => DomRight .list l (.list es) ∧ es.length < rounds) (DomObserves f) l act (RHub.start h r act) := by
  refine ranging_sound_upTo (n := ops.length + N) (domImpl_lawful (V := V) st hf) ops hl (domRead f) DomRight (DomObserves f) ?_ ?_ (Loop.Lawful.short (domLoop_lawful st hf hd hr) fun _ _ h1 h2 => ⟨h1.1, h2⟩) act ha N (Nat.le_refl _)
  · exact fun q h r l F hn ho => domRead_ok hf hd q h r l F hn ho
  · exact fun h r l F hn ho => domObserves_of_rep (by omega) hd ho

/-- C90 (domaintree, goroutines that make at most `k` calls). -/
theorem C90_domaintree_ends (st : Bool) {f rounds : Nat} (hd : 128 ≤ f) (ops : List (SOp (Op V)))
    (hl : (Book.init : Book (Op V)).LegalAll2 cowOk (inpOk st) ops)
    {T : Type} [DecidableEq T] {ts : List T} (hts : ∀ t, t ∈ ts) (act : T → RAct (Op V) DomQ (Reply V (Bytes × V)) (Bytes × V))
    (ha : ∀ t, (act t).Legal cowOk (inpOk st) DomRight (fun l es => DomRight .list l (.list es) ∧ es.length < rounds) false ⟨1, []⟩ [] []) (k : T → Nat) (hm : ∀ t, (act t).AtMost (k t)) (hf : 2 * (ops.length + (ts.map k).sum) + 3 ≤ f) (hr : (ops.length + (ts.map k).sum + 2) ^ 128 ≤ rounds) :
    EachRoot (domImpl st f) ops fun h r l => RangeEnds (domImpl st f) (domRead f) (domLoop f rounds V) DomRight (fun l es => DomRight .list l (.list es) ∧ es.length < rounds) (DomObserves f) l act (RHub.start h r act) := by
  refine ranging_sound_atMost (n := ops.length + (ts.map k).sum) (domImpl_lawful (V := V) st hf) ops hl (domRead f) DomRight (DomObserves f) ?_ ?_ (Loop.Lawful.short (domLoop_lawful st hf hd hr) fun _ _ h1 h2 => ⟨h1.1, h2⟩) hts act ha k hm (Nat.le_refl _)
  · exact fun q h r l F hn ho => domRead_ok hf hd q h r l F hn ho
  · exact fun h r l F hn ho => domObserves_of_rep (by omega) hd ho

end Domaintree

section Dltree
open Verif.DL Verif.DLHeap
variable {V : Type} [Inhabited V]

/-- C90 (dltree, loops over RawEnumerate, runs of at most `N` steps). -/
theorem C90_dltree_raw (st : Bool) {f : Nat} (ops : List (SOp (DL.Op V)))
    (hl : (Book.init : Book (DL.Op V)).LegalAll2 dlCow (dlInp st) ops)
    {T : Type} [DecidableEq T] (act : T → RAct (DL.Op V) LabelQ (Reply V (Bytes × V)) (Bytes × V))
    (ha : ∀ t, (act t).Legal dlCow (dlInp st) LabelRight (fun l es => LabelRight .list l (.list es) ∧ es.length < f) false ⟨1, []⟩ [] []) (N : Nat) (hf : 2 * (ops.length + N) + 3 ≤ f) :
    EachRoot (dlImpl st f) ops fun h r l => RangeUpTo N (dlImpl st f) (labelRead f) (dlRawLoop f f V) LabelRight (fun l es => LabelRight .list l (.list es) ∧ es.length < f) (DLShows f) l act (RHub.start h r act) := by
  refine ranging_sound_upTo (n := ops.length + N) (dlImpl_lawful (V := V) st hf) ops hl (labelRead f) LabelRight (DLShows f) ?_ ?_ (Loop.Lawful.short (dlRawLoop_lawful st hf (by omega)) fun _ _ h1 h2 => ⟨h1.1, h2⟩) act ha N (Nat.le_refl _)
  · exact fun q h r l F hn ho => labelRead_ok hf q h r l F hn ho
  · exact fun h r l F hn ho => dlShows_of_obj (by omega) ho

/-- C90 (dltree, loops over RawEnumerate, goroutines that make at most `k` calls). -/
theorem C90_dltree_raw_ends (st : Bool) {f : Nat} (ops : List (SOp (DL.Op V)))
    (hl : (Book.init : Book (DL.Op V)).LegalAll2 dlCow (dlInp st) ops)
    {T : Type} [DecidableEq T] {ts : List T} (hts : ∀ t, t ∈ ts) (act : T → RAct (DL.Op V) LabelQ (Reply V (Bytes × V)) (Bytes × V))
    (ha : ∀ t, (act t).Legal dlCow (dlInp st) LabelRight (fun l es => LabelRight .list l (.list es) ∧ es.length < f) false ⟨1, []⟩ [] []) (k : T → Nat) (hm : ∀ t, (act t).AtMost (k t)) (hf : 2 * (ops.length + (ts.map k).sum) + 3 ≤ f) :
    EachRoot (dlImpl st f) ops fun h r l => RangeEnds (dlImpl st f) (labelRead f) (dlRawLoop f f V) LabelRight (fun l es => LabelRight .list l (.list es) ∧ es.length < f) (DLShows f) l act (RHub.start h r act) := by
  refine ranging_sound_atMost (n := ops.length + (ts.map k).sum) (dlImpl_lawful (V := V) st hf) ops hl (labelRead f) LabelRight (DLShows f) ?_ ?_ (Loop.Lawful.short (dlRawLoop_lawful st hf (by omega)) fun _ _ h1 h2 => ⟨h1.1, h2⟩) hts act ha k hm (Nat.le_refl _)
  · exact fun q h r l F hn ho => labelRead_ok hf q h r l F hn ho
  · exact fun h r l F hn ho => dlShows_of_obj (by omega) ho


theorem restrict_stepP (st : Bool) (f : Nat) (rs : List Ptr) (op : SOp (DL.Op V)) : stepP (restrict (dlImpl st f) Short) rs op = stepP (dlImpl st f) rs op := by
  cases op <;> rfl

theorem restrict_exec (st : Bool) (f : Nat) (ops : List (SOp (DL.Op V))) : ∀ s, OStore.exec (restrict (dlImpl (V := V) st f) Short) s ops = OStore.exec (dlImpl st f) s ops := by
  induction ops with
  | nil => exact fun _ => rfl
  | cons op ops ih =>
    intro s
    have e1 : s.step (restrict (dlImpl (V := V) st f) Short) op = s.step (dlImpl st f) op := by cases op <;> rfl
    simp only [OStore.exec, e1, ih]

/-- C90 (dltree, loops over Enumerate, which needs stored labels of at most 63 bytes, runs of at most `N` steps). -/
theorem C90_dltree (st : Bool) {f : Nat} (ops : List (SOp (DL.Op V)))
    (hl : (Book.init : Book (DL.Op V)).LegalAll2 (fun l o => dlCow l o ∧ Short o) (fun l o => dlInp st l o ∧ Short o) ops)
    {T : Type} [DecidableEq T] (act : T → RAct (DL.Op V) LabelQ (Reply V (Bytes × V)) (Bytes × V))
    (ha : ∀ t, (act t).Legal (fun l o => dlCow l o ∧ Short o) (fun l o => dlInp st l o ∧ Short o) LabelRight (fun l es => TextRight l es ∧ es.length < f) false ⟨1, []⟩ [] []) (N : Nat) (hf : 2 * (ops.length + N) + 3 ≤ f) :
    EachRoot (dlImpl st f) ops fun h r l => RangeUpTo N (dlImpl st f) (labelRead f) (dlLoop f f V) LabelRight (fun l es => TextRight l es ∧ es.length < f) (DLShows f) l act (RHub.start h r act) := by
  have main := ranging_sound_upTo (n := ops.length + N) (T := T) (restrict_lawful (dlImpl_lawful (V := V) st hf)) ops hl (labelRead f) LabelRight (DLShows f) (Lp := (dlLoop f f V)) (L := (fun l es => TextRight l es ∧ es.length < f)) (fun q h r l F hn ho => labelRead_ok hf q h r l F hn ho.1) (fun h r l F hn ho => dlShows_of_obj (by omega) ho.1) (Loop.Lawful.short (dlLoop_lawful st hf (by omega)) fun _ _ h1 h2 => ⟨h1.1, h2⟩) act ha N (Nat.le_refl _)
  simp only [restrict_exec] at main
  have e := restrict_stepP (V := V) st f
  obtain ⟨s, hs, main⟩ := main
  refine ⟨s, hs, fun i r v hr hv => ?_⟩
  have := main i r v hr hv
  exact fun k s' hk hr => (this k s' hk (by rw [rstep_congr e]; exact hr)).congr e

/-- C90 (dltree, loops over Enumerate, which needs stored labels of at most 63 bytes, goroutines that make at most `k` calls). -/
theorem C90_dltree_ends (st : Bool) {f : Nat} (ops : List (SOp (DL.Op V)))
    (hl : (Book.init : Book (DL.Op V)).LegalAll2 (fun l o => dlCow l o ∧ Short o) (fun l o => dlInp st l o ∧ Short o) ops)
    {T : Type} [DecidableEq T] {ts : List T} (hts : ∀ t, t ∈ ts) (act : T → RAct (DL.Op V) LabelQ (Reply V (Bytes × V)) (Bytes × V))
    (ha : ∀ t, (act t).Legal (fun l o => dlCow l o ∧ Short o) (fun l o => dlInp st l o ∧ Short o) LabelRight (fun l es => TextRight l es ∧ es.length < f) false ⟨1, []⟩ [] []) (k : T → Nat) (hm : ∀ t, (act t).AtMost (k t)) (hf : 2 * (ops.length + (ts.map k).sum) + 3 ≤ f) :
    EachRoot (dlImpl st f) ops fun h r l => RangeEnds (dlImpl st f) (labelRead f) (dlLoop f f V) LabelRight (fun l es => TextRight l es ∧ es.length < f) (DLShows f) l act (RHub.start h r act) := by
  have main := ranging_sound_atMost (n := ops.length + (ts.map k).sum) (T := T) (restrict_lawful (dlImpl_lawful (V := V) st hf)) ops hl (labelRead f) LabelRight (DLShows f) (Lp := (dlLoop f f V)) (L := (fun l es => TextRight l es ∧ es.length < f)) (fun q h r l F hn ho => labelRead_ok hf q h r l F hn ho.1) (fun h r l F hn ho => dlShows_of_obj (by omega) ho.1) (Loop.Lawful.short (dlLoop_lawful st hf (by omega)) fun _ _ h1 h2 => ⟨h1.1, h2⟩) hts act ha k hm (Nat.le_refl _)
  simp only [restrict_exec] at main
  have e := restrict_stepP (V := V) st f
  obtain ⟨s, hs, main⟩ := main
  refine ⟨s, hs, fun i r v hr hv => ?_⟩
  have := main i r v hr hv
  refine ⟨fun k s' hr => (this.promise k s' (by rw [rstep_congr e]; exact hr)).congr e, fun ts hts σ h hm => this.ends ts hts σ h fun i => ?_⟩
  have := hm i
  unfold RMove at this ⊢
  rw [rstep_congr e]; exact this

end Dltree

/-! ## Concrete cases -/

/-- After a history, with the `i`-th tree in the variable, and some turns: for every goroutine what it has seen (`out`), if it has come to its end. -/
def rangeFinals {D O R K A B E X : Type} (I : OImpl D O R) (Rd : K → R → Prog D A) (Lp : Loop D R B E) (ops : List (SOp O)) (i n : Nat) (act : Fin n → RAct O K A E)
    (out : Fin n → List (REvent (Fin n) O K A E) → X) (sched : List (Fin n × Nat)) : Option (List (Option X)) :=
  match OStore.init.exec I ops with
  | .ok s => (s.roots[i]?).map fun r =>
    let e := (RHub.start s.heap r act).turns I Rd Lp sched
    (List.finRange n).map fun t => if e.over t then some (out t e.log) else none
  | .error _ => none

section
open Verif.RB Verif.RBHeap

/-- Loop over the tree in the variable and look every key up again in what the variable holds then; afterwards list the tree of the loop. -/
def kvWatch (n : Nat) : RAct (KOp Bytes Nat) KVQ (Reply Nat (Bytes × Nat)) (Bytes × Nat) :=
  .load (.range 0 (RAct.loop 0 (fun e c => .load (.read 1 (.get e.1) fun _ => .drop 1 c)) (.read 0 .list fun _ => .done) n))

/-- With the lock: for every entry of the tree in the variable put one with a longer key in a copy, then make the copy current. -/
def kvGrow (n : Nat) : RAct (KOp Bytes Nat) KVQ (Reply Nat (Bytes × Nat)) (Bytes × Nat) :=
  .lock (.load (.load (.range 0 (RAct.loop 0 (fun e c => .call (.cow 1 (.insert (e.1 ++ [7]) (e.2 + 10))) (.drop 1 c)) (.store 1 (.unlock (.read 1 .list fun _ => .done))) n))))

/-- Take the first entry and leave the loop. -/
def kvPeek : RAct (KOp Bytes Nat) KVQ (Reply Nat (Bytes × Nat)) (Bytes × Nat) :=
  .load (.range 0 (RAct.loop 0 (fun _ _ => .done) .done 1000))

def kvRangers (n : Nat) : Fin 3 → RAct (KOp Bytes Nat) KVQ (Reply Nat (Bytes × Nat)) (Bytes × Nat)
  | 0 => kvWatch n
  | 1 => kvGrow n
  | 2 => kvPeek

/-- Goroutine 1 is quicker than the others. -/
def kvTurns : List (Fin 3 × Nat) := (List.replicate 27 (List.replicate 9 (1, 0) ++ [(1, 1), (0, 0), (0, 1), (2, 0), (2, 1)])).flatten

/-- Goroutine 0 comes after the others. -/
def kvTurns' : List (Fin 3 × Nat) :=
  (List.replicate 16 (List.replicate 12 (1, 0) ++ [(1, 1)])).flatten ++ (List.replicate 10 [(2, 0), (2, 1)]).flatten ++ (List.replicate 60 [(0, 0), (0, 1)]).flatten

/-- The values received. -/
def kvGot {n : Nat} {O K A : Type} (t : Fin n) (es : List (REvent (Fin n) O K A (Bytes × Nat))) : List (Option Nat) := (receivedBy t es).map (·.map (·.2))

/-- Goroutine 0 sees the two entries of the tree as it was, while goroutine 1 replaces it. -/
example : rangeFinals (rbImpl compareBytes 1000).toO (kvRead compareBytes 1000) (strLoop 1000 1000 Nat) kvShared 2 3 (kvRangers 1000) kvGot kvTurns =
    some [some [some 1, some 2, none], some [some 1, some 2, none], some [some 1]] := by decide +kernel

example : rangeFinals (rbImpl compareBytes 1000).toO (kvRead compareBytes 1000) (strLoop 1000 1000 Nat) kvShared 2 3 (kvRangers 1000) answeredTo kvTurns =
    some [some [some (.val (some 1)), some (.val (some 2)), some (.list [([1], 1), ([2], 2)])], some [some (.list [([1], 1), ([1, 7], 11), ([2], 2), ([2, 7], 12)])], some []] := by
  decide +kernel

/-- If goroutine 0 starts when the others have ended, it sees what goroutine 1 made. -/
example : rangeFinals (rbImpl compareBytes 1000).toO (kvRead compareBytes 1000) (strLoop 1000 1000 Nat) kvShared 2 3 (kvRangers 1000) kvGot kvTurns' =
    some [some [some 1, some 11, some 2, some 12, none], some [some 1, some 2, none], some [some 1]] := by decide +kernel

example (n : Nat) (hn : n ≤ 1000) (iok : List (KOp Bytes Nat) → KOp Bytes Nat → Prop) (t : Fin 3) :
    (kvRangers n t).Legal (fun _ _ => True) iok (KVRight compareBytes) (fun l es => KVRight compareBytes .list l (.list es) ∧ es.length < n) false ⟨1, []⟩ [] [] := by
  match t with
  | 0 =>
    refine fun l => ⟨(0, l), rfl, (fun h => by cases h), fun es he => ?_⟩
    refine RAct.Legal.loop (fun b sh => b.vs = [(0, l)] ∧ b.next = 1) ?_ ?_ he.2 rfl ⟨rfl, rfl⟩
    · rintro e c ⟨nx, vs⟩ sh qs ⟨hv, hn⟩ hc
      subst hv
      exact fun l' a _ => hc _ _ _ ⟨rfl, hn⟩ rfl
    · rintro ⟨nx, vs⟩ sh qs ⟨hv, hn⟩
      subst hv
      exact fun a _ => rfl
  | 1 =>
    refine ⟨rfl, fun l l' => ⟨(0, l), rfl, fun _ => rfl, fun es he => ?_⟩⟩
    refine RAct.Legal.loop (fun b sh => ∃ l2, b = ⟨1, [(0, l), (0, l2)]⟩) ?_ ?_ he.2 rfl ⟨l', rfl⟩
    · rintro e c b sh qs ⟨l2, rfl⟩ hc
      exact ⟨rfl, fun _ _ => trivial, trivial, hc _ _ _ ⟨_, rfl⟩ rfl⟩
    · rintro b sh qs ⟨l2, rfl⟩
      exact ⟨rfl, Nat.lt_succ_self 1, rfl, fun a _ => rfl⟩
  | 2 =>
    refine fun l => ⟨(0, l), rfl, (fun h => by cases h), fun es he => ?_⟩
    refine RAct.Legal.loop (fun _ _ => True) ?_ ?_ (Nat.lt_of_lt_of_le he.2 hn) rfl trivial
    · exact fun _ _ _ _ _ _ _ => rfl
    · exact fun _ _ _ _ => rfl

/-- Goroutine 0 makes no calls, goroutine 2 neither. -/
example (n : Nat) : (kvWatch n).AtMost 0 ∧ kvPeek.AtMost 0 := by
  constructor
  · simp only [kvWatch, RAct.AtMost]
    induction n with
    | zero => trivial
    | succ n ih =>
      rintro (_ | e)
      · exact fun _ => trivial
      · exact fun _ => ih
  · simp only [kvPeek, RAct.AtMost, RAct.loop]
    rintro (_ | e) <;> trivial

end

/-- Goroutine 0 loops over the tree in the variable twice at a time, goroutine 1 replaces the tree by one derived from it. -/
def pairRangers {O K A E : Type} (n : Nat) (o : O) : Fin 2 → RAct O K A E
  | 0 => .load (.range 0 (.range 0 (RAct.loop 0 (fun _ c => .next 1 fun _ => c) .done n)))
  | 1 => .lock (.load (.call (.cow 0 o) (.store 1 (.unlock .done))))

/-- It is covered, for every kind of tree. -/
theorem pairRangers_legal {O K A E : Type} {ok iok : List O → O → Prop} {P : K → List O → A → Prop} {L : List O → List E → Prop} {n : Nat} {o : O} (ho : ∀ l, ok l o)
    (t : Fin 2) : (pairRangers n o t).Legal ok iok P (fun l es => L l es ∧ es.length < n) false ⟨1, []⟩ [] [] := by
  match t with
  | 0 =>
    refine fun l => ⟨(0, l), rfl, (fun h => by cases h), fun es he => ⟨(0, l), rfl, (fun h => by cases h), fun fs hf => ?_⟩⟩
    have key : ∀ (L : List O → List E → Prop) (es fs : List E) n, es.length < n →
        (RAct.loop 0 (fun _ c => .next 1 fun _ => c) .done n : RAct O K A E).Legal ok iok P L false ⟨1, [(0, l)]⟩ [true] [es, fs] := by
      intro L es
      induction es with
      | nil =>
        intro fs n hn
        cases n with
        | zero => cases hn
        | succ n => exact ⟨[], rfl, rfl⟩
      | cons e es ih =>
        intro fs n hn
        cases n with
        | zero => cases hn
        | succ n => exact ⟨e :: es, rfl, fs, rfl, ih fs.tail n (by simpa using hn)⟩
    exact key _ es fs n he.2
  | 1 => exact ⟨rfl, fun l => ⟨rfl, fun v hv => by cases hv; exact ho _, trivial, rfl, Nat.lt_succ_self 1, rfl, rfl⟩⟩

/-- Turns for the two of them. -/
def pairTurns (m : Nat) : List (Fin 2 × Nat) := (List.replicate m [(1, 0), (1, 0), (0, 0), (1, 0), (0, 1), (1, 0), (0, 2)]).flatten

section
open Verif.Num Verif.NumHeap

example (t : Fin 2) : (pairRangers (2 ^ 33) (.delete 0x0A000000#32 8) t).Legal (fun _ _ => True) (fun _ => (numImpl 34 32 Nat).inpOk) NumRight
    (fun l es => NumRight .list l (.list es) ∧ es.length < 2 ^ 33) false ⟨1, []⟩ [] [] := pairRangers_legal (fun _ => trivial) t

example : rangeFinals (numImpl 34 32 Nat).toO (numRead 34) (numLoop 34 (2 ^ 33) 32 Nat) numTwo 2 2 (pairRangers (2 ^ 33) (.delete 0x0A000000#32 8))
    (fun t es => (receivedBy t es).map (·.map (·.value))) (pairTurns 50) = some [some [some 1, some 1, some 2, some 2, none], some []] := by decide +kernel

/-- Not covered: with the lock, start a tree, call `Enumerate` on it, and go on inserting in place. -/
def numTooSoon : Fin 1 → RAct (NumOp 32 Nat) (NumQ 32) (Reply Nat (ND 32 Nat)) (ND 32 Nat)
  | _ => .lock (.call .fresh (.call (.inp 0 (.insert 0x0A000000#32 8 1)) (.range 0 (.call (.inp 0 (.insert 0x0A010000#32 16 2)) (.store 0 (.unlock .done))))))

/-- The node the first goroutine is about to write is one that a goroutine behind its channels is about to read. -/
def rangeRacing {D O R K A B E : Type} {n : Nat} (s : RHub D (Fin (n + 1)) O R K A B E) : Bool := match s.writes 0 with
  | some a => (s.th 0).chans.any fun | .mk (.read a' _) _ => a == a' | _ => false
  | none => false

theorem rangeRacing_eq {D O R K A B E : Type} {n : Nat} {s : RHub D (Fin (n + 1)) O R K A B E} (h : rangeRacing s = true) :
    ∃ a, s.writes 0 = some a ∧ ∃ p ∈ (s.th 0).chans, p.AtRead a := by
  unfold rangeRacing at h
  split at h
  · rename_i a e
    rw [List.any_eq_true] at h
    obtain ⟨p, hp, h⟩ := h
    refine ⟨a, e, p, hp, ?_⟩
    split at h
    · have := LawfulBEq.eq_of_beq h
      subst this
      exact .here
    · cases h
  · cases h

/-- C90, why the restriction: `Enumerate` on a tree that its goroutine goes on changing in place, as it may without the loop, makes a data race. -/
theorem C90_inplace_race : ∃ s r, OStore.init.exec (numImpl 34 32 Nat).toO numTwo = .ok s ∧ s.roots[2]? = some r ∧
    ∃ k s', Spec.Runs (RStep (numImpl 34 32 Nat).toO (numRead 34) (numLoop 34 (2 ^ 33) 32 Nat)) k (RHub.start s.heap r numTooSoon) s' ∧
      ∃ a, s'.writes 0 = some a ∧ ∃ p ∈ (s'.th 0).chans, p.AtRead a := by
  refine ⟨_, _, rfl, rfl, ?_⟩
  obtain ⟨k, hk⟩ := RHub.turns_runs (numImpl 34 32 Nat).toO (numRead 34) (numLoop 34 (2 ^ 33) 32 Nat) (List.replicate 11 ((0 : Fin 1), 0)) (.refl (RHub.start _ _ numTooSoon))
  exact ⟨k, _, hk, rangeRacing_eq (by decide +kernel)⟩

end

section
open Verif.IP Verif.IPHeap

example (t : Fin 2) : (pairRangers (2 ^ 132) (.insertNet (some ⟨[11, 0, 0, 0], [255, 0, 0, 0]⟩) 3) t).Legal (fun _ _ => True) (ipImpl (V := Nat) true 66).inpOk NetRight
    (fun l es => NetRight .list l (.list es) ∧ es.length < 2 ^ 132) false ⟨1, []⟩ [] [] := pairRangers_legal (fun _ => trivial) t

example (t : Fin 2) : (pairRangers (2 ^ 132) (.insertNet (some ⟨[11, 0, 0, 0], [255, 0, 0, 0]⟩) 3) t).Legal (fun _ _ => True) (UIPHeap.uipImpl (V := Nat) true 66).inpOk UNetRight
    (fun l es => UNetRight .list l (.list es) ∧ es.length < 2 ^ 132) false ⟨1, []⟩ [] [] := pairRangers_legal (fun _ => trivial) t

example : (rangeFinals (ipImpl true 66) (netRead 66) (ipLoop 66 (2 ^ 132) Nat) netTwo 2 2 (pairRangers (2 ^ 132) (.insertNet (some ⟨[11, 0, 0, 0], [255, 0, 0, 0]⟩) 3))
    (fun t es => (receivedBy t es).map (·.map (·.1.ip.length))) (pairTurns 60)) = some [some [some 4, some 4, some 16, some 16, none], some []] := by decide +kernel

example : (rangeFinals (UIPHeap.uipImpl true 66) (unetRead 66) (uipLoop 66 (2 ^ 132) Nat) netTwo 2 2 (pairRangers (2 ^ 132) (.insertNet (some ⟨[11, 0, 0, 0], [255, 0, 0, 0]⟩) 3))
    (fun t es => (receivedBy t es).map (·.map (·.2))) (pairTurns 60)) = some [some [some 2, some 2, some 1, some 1, none], some []] := by decide +kernel

end

section
open Verif.Domain Verif.DomTree Verif.DomHeap

example (rounds : Nat) (t : Fin 2) : (pairRangers rounds (.insert (nm "org") 3) t).Legal cowOk (inpOk true) DomRight
    (fun l es => DomRight .list l (.list es) ∧ es.length < rounds) false ⟨1, []⟩ [] [] :=
  pairRangers_legal (fun _ => ⟨⟨txt "org", show MakeNameFromString (txt "org") = .ok (nm "org") by decide +kernel⟩, trivial⟩) t

example : (rangeFinals (domImpl true 128) (domRead 128) (domLoop 128 128 Nat) domTwo 2 2 (pairRangers 128 (.insert (nm "org") 3))
    (fun t es => (receivedBy t es).map (·.map (·.2))) (pairTurns 60)) = some [some [some 1, some 1, some 2, some 2, none], some []] := by decide +kernel

end

section
open Verif.DL Verif.DLHeap

example (f : Nat) (t : Fin 2) : (pairRangers f (.rawDelete [65] : DL.Op Nat) t).Legal dlCow (dlInp true) LabelRight (fun l es => LabelRight .list l (.list es) ∧ es.length < f) false ⟨1, []⟩ [] [] :=
  pairRangers_legal (fun _ => ⟨_, .rawDelete⟩) t

example (f : Nat) (t : Fin 2) : (pairRangers f (.rawDelete [65] : DL.Op Nat) t).Legal (fun l o => dlCow l o ∧ Short o) (fun l o => dlInp true l o ∧ Short o) LabelRight
    (fun l es => TextRight l es ∧ es.length < f) false ⟨1, []⟩ [] [] :=
  pairRangers_legal (fun _ => ⟨⟨_, .rawDelete⟩, fun l v h => by cases h⟩) t

example : (rangeFinals (dlImpl true 200) (labelRead 200) (dlRawLoop 200 200 Nat) labelTwo 2 2 (pairRangers 200 (.rawDelete [65]))
    (fun t es => (receivedBy t es).map (·.map (·.2))) (pairTurns 60)) = some [some [some 1, some 1, some 2, some 2, none], some []] := by decide +kernel

end

end Verif.Props
