import Verif.Heap.Fair
import Verif.Props.Guarded

/-!
# Property theorems: goroutines sharing trees come to their end (C88)

The settings of C81 (a variable and a lock) and C87 (a tree under a read-write lock), with finitely many goroutines `ts` and infinite schedules.  `HubEnds` and `GuardEnds` say that
what C81 and C87 promise holds at any time, and that all goroutines come to their end if every goroutine gets its turn again and again.  For trees whose size is not
bounded by their keys the loop bound `f` of the model has to suffice for the calls the goroutines make (`k`), not for the length of the schedule.
-/

namespace Verif.Props
open Verif Verif.Heap Prog

/-- As `SharedUnderLock`, for an infinite schedule. -/
def LockedEnds {D O R K A T : Type} [DecidableEq T] (I : OImpl D O R) (Rd : K → R → Prog D A) (P : K → List O → A → Prop) (Ob : Heap D → R → List O → Prop)
    (ops : List (SOp O)) (J : List O → Prop) (act : T → GAct O K A) (sched : Nat → T) : Prop :=
  ∃ s, OStore.init.exec I ops = .ok s ∧ ∀ (i : Nat) r v, s.roots[i]? = some r → (Book.init.exec ops).vs[i]? = some v → J v.2 →
    (∀ j u, j ≠ i → (Book.init.exec ops).vs[j]? = some u → u.1 ≠ v.1) → GuardEnds I Rd P Ob v.2 act (Guard.start s.heap r act) sched

section Numtree
open Verif.Num Verif.NumHeap
variable {w : Nat} {V : Type} [LawfulKeySize w] [Inhabited V]

/-- C88 (numtree, a shared variable). -/
theorem C88_numtree_variable {f : Nat} (hf : w + 2 ≤ f) (ops : List (SOp (NumOp w V)))
    (hl : (Book.init : Book (NumOp w V)).LegalAll2 (fun _ _ => True) (fun _ => (numImpl f w V).inpOk) ops)
    {T : Type} [DecidableEq T] {ts : List T} (hts : ∀ t, t ∈ ts) (act : T → Act (NumOp w V) (NumQ w) (Reply V (ND w V)))
    (ha : ∀ t, (act t).Legal (fun _ _ => True) (fun _ => (numImpl f w V).inpOk) NumRight false ⟨1, []⟩) (sched : Nat → T) :
    EachRoot (numImpl f w V).toO ops fun h r l => HubEnds (numImpl f w V).toO (numRead f) NumRight (fun h r l => Observes f h r (lastWrite (l.map NumOp.abs))) l act (Hub.start h r act) sched := by
  refine hub_ends (fun n => (Impl.toO_lawful (numImpl_lawful (V := V) hf n))) ops hl (numRead f) NumRight (fun h r l => Observes f h r (lastWrite (l.map NumOp.abs))) ?_ ?_ hts act ha sched
  · exact fun q h r l F ho => numRead_ok hf q h r l F ho
  · rintro h r l F ⟨A, rfl, a1, a2, _, _⟩
    exact observes_of_rep hf a1 a2

/-- C88 (numtree, a read-write lock). -/
theorem C88_numtree_lock {f : Nat} (hf : w + 2 ≤ f) (ops : List (SOp (NumOp w V)))
    (hl : (Book.init : Book (NumOp w V)).LegalAll2 (fun _ _ => True) (fun _ => (numImpl f w V).inpOk) ops)
    {T : Type} [DecidableEq T] {ts : List T} (hts : ∀ t, t ∈ ts) (J : List (NumOp w V) → Prop) (act : T → GAct (NumOp w V) (NumQ w) (Reply V (ND w V)))
    (ha : ∀ t, (act t).Legal J (fun _ _ => True) (fun _ => (numImpl f w V).inpOk) NumRight .free []) (sched : Nat → T) :
    LockedEnds (numImpl f w V).toO (numRead f) NumRight (fun h r l => Observes f h r (lastWrite (l.map NumOp.abs))) ops J act sched := by
  refine guard_ends (fun n => (Impl.toO_lawful (numImpl_lawful (V := V) hf n))) ops hl (numRead f) NumRight (fun h r l => Observes f h r (lastWrite (l.map NumOp.abs))) ?_ ?_ hts J act ha sched
  · exact fun q h r l F ho => numRead_ok hf q h r l F ho
  · rintro h r l F ⟨A, rfl, a1, a2, _, _⟩
    exact observes_of_rep hf a1 a2

end Numtree

section Strtree
open Verif.RB Verif.RBHeap
variable {V : Type} [Inhabited V]

/-- C88 (strtree, a shared variable). -/
theorem C88_strtree_variable {cmp : Bytes → Bytes → Int} (hc : LawfulCmp cmp) {f : Nat} (ops : List (SOp (KOp Bytes V)))
    (hl : (Book.init : Book (KOp Bytes V)).LegalAll2 (fun _ _ => True) (fun _ => (rbImpl (V := V) cmp f).inpOk) ops)
    {T : Type} [DecidableEq T] {ts : List T} (hts : ∀ t, t ∈ ts) (act : T → Act (KOp Bytes V) KVQ (Reply V (Bytes × V)))
    (ha : ∀ t, (act t).Legal (fun _ _ => True) (fun _ => (rbImpl (V := V) cmp f).inpOk) (KVRight cmp) false ⟨1, []⟩) (k : T → Nat) (hm : ∀ t, (act t).AtMost (k t)) (hf : 2 * (ops.length + (ts.map k).sum) + 3 ≤ f) (sched : Nat → T) :
    EachRoot (rbImpl cmp f).toO ops fun h r l => HubEnds (rbImpl cmp f).toO (kvRead cmp f) (KVRight cmp) (KVObserves cmp f) l act (Hub.start h r act) sched := by
  refine hub_ends_atMost (n := ops.length + (ts.map k).sum) (Impl.toO_lawful (rbImpl_lawful (V := V) hc.refl hf)) ops hl (kvRead cmp f) (KVRight cmp) (KVObserves cmp f) ?_ ?_ hts act ha k hm (Nat.le_refl _) sched
  · exact fun q h r l F hn ho => kvRead_ok hc hf q h r l F hn ho
  · rintro h r l F hn ⟨A, rfl, a1, a2, _, _⟩
    exact kvObserves_of_rep hc (by omega) hn a1 a2

/-- C88 (strtree, a read-write lock). -/
theorem C88_strtree_lock {cmp : Bytes → Bytes → Int} (hc : LawfulCmp cmp) {f : Nat} (ops : List (SOp (KOp Bytes V)))
    (hl : (Book.init : Book (KOp Bytes V)).LegalAll2 (fun _ _ => True) (fun _ => (rbImpl (V := V) cmp f).inpOk) ops)
    {T : Type} [DecidableEq T] {ts : List T} (hts : ∀ t, t ∈ ts) (J : List (KOp Bytes V) → Prop) (act : T → GAct (KOp Bytes V) KVQ (Reply V (Bytes × V)))
    (ha : ∀ t, (act t).Legal J (fun _ _ => True) (fun _ => (rbImpl (V := V) cmp f).inpOk) (KVRight cmp) .free []) (k : T → Nat) (hm : ∀ t, (act t).AtMost (k t)) (hf : 2 * (ops.length + (ts.map k).sum) + 3 ≤ f) (sched : Nat → T) :
    LockedEnds (rbImpl cmp f).toO (kvRead cmp f) (KVRight cmp) (KVObserves cmp f) ops J act sched := by
  refine guard_ends_atMost (n := ops.length + (ts.map k).sum) (Impl.toO_lawful (rbImpl_lawful (V := V) hc.refl hf)) ops hl (kvRead cmp f) (KVRight cmp) (KVObserves cmp f) ?_ ?_ hts J act ha k hm (Nat.le_refl _) sched
  · exact fun q h r l F hn ho => kvRead_ok hc hf q h r l F hn ho
  · rintro h r l F hn ⟨A, rfl, a1, a2, _, _⟩
    exact kvObserves_of_rep hc (by omega) hn a1 a2

end Strtree

section Iptree
open Verif.IP Verif.IPHeap
variable {V : Type} [Inhabited V]

/-- C88 (iptree, a shared variable). -/
theorem C88_iptree_variable (st : Bool) {f : Nat} (hf : 66 ≤ f) (ops : List (SOp (Op V)))
    (hl : (Book.init : Book (Op V)).LegalAll2 (fun _ _ => True) (ipImpl st f).inpOk ops)
    {T : Type} [DecidableEq T] {ts : List T} (hts : ∀ t, t ∈ ts) (act : T → Act (Op V) NetQ (Reply (HV V) (IPNet × HV V)))
    (ha : ∀ t, (act t).Legal (fun _ _ => True) (ipImpl st f).inpOk NetRight false ⟨1, []⟩) (sched : Nat → T) :
    EachRoot (ipImpl st f) ops fun h r l => HubEnds (ipImpl st f) (netRead f) NetRight (NetObserves f) l act (Hub.start h r act) sched := by
  refine hub_ends (fun n => (ipImpl_lawful (V := V) st hf n)) ops hl (netRead f) NetRight (NetObserves f) ?_ ?_ hts act ha sched
  · exact fun q h r l F ho => netRead_ok hf q h r l F ho
  · rintro h r l F ⟨t, ht, hT⟩
    exact netObserves_of_rep hf hT ht

/-- C88 (iptree, a read-write lock). -/
theorem C88_iptree_lock (st : Bool) {f : Nat} (hf : 66 ≤ f) (ops : List (SOp (Op V)))
    (hl : (Book.init : Book (Op V)).LegalAll2 (fun _ _ => True) (ipImpl st f).inpOk ops)
    {T : Type} [DecidableEq T] {ts : List T} (hts : ∀ t, t ∈ ts) (J : List (Op V) → Prop) (act : T → GAct (Op V) NetQ (Reply (HV V) (IPNet × HV V)))
    (ha : ∀ t, (act t).Legal J (fun _ _ => True) (ipImpl st f).inpOk NetRight .free []) (sched : Nat → T) :
    LockedEnds (ipImpl st f) (netRead f) NetRight (NetObserves f) ops J act sched := by
  refine guard_ends (fun n => (ipImpl_lawful (V := V) st hf n)) ops hl (netRead f) NetRight (NetObserves f) ?_ ?_ hts J act ha sched
  · exact fun q h r l F ho => netRead_ok hf q h r l F ho
  · rintro h r l F ⟨t, ht, hT⟩
    exact netObserves_of_rep hf hT ht

end Iptree

section UIptree
open Verif.IP (Op OpNet)
open Verif.UIPHeap (UD uipImpl uipImpl_lawful)
variable {V : Type} [Inhabited V]

/-- C88 (generated IP trees, a shared variable). -/
theorem C88_uiptree_variable (st : Bool) {f : Nat} (hf : 66 ≤ f) (ops : List (SOp (Op V)))
    (hl : (Book.init : Book (Op V)).LegalAll2 (fun _ _ => True) (uipImpl st f).inpOk ops)
    {T : Type} [DecidableEq T] {ts : List T} (hts : ∀ t, t ∈ ts) (act : T → Act (Op V) NetQ (Reply V (IPNet × V)))
    (ha : ∀ t, (act t).Legal (fun _ _ => True) (uipImpl st f).inpOk UNetRight false ⟨1, []⟩) (sched : Nat → T) :
    EachRoot (uipImpl st f) ops fun h r l => HubEnds (uipImpl st f) (unetRead f) UNetRight (UShows f) l act (Hub.start h r act) sched := by
  refine hub_ends (fun n => (uipImpl_lawful (V := V) st hf n)) ops hl (unetRead f) UNetRight (UShows f) ?_ ?_ hts act ha sched
  · exact fun q h r l F ho => unetRead_ok hf q h r l F ho
  · rintro h r l F ⟨t, hT, hL, _⟩
    exact uShows_of_rep hf hT hL

/-- C88 (generated IP trees, a read-write lock). -/
theorem C88_uiptree_lock (st : Bool) {f : Nat} (hf : 66 ≤ f) (ops : List (SOp (Op V)))
    (hl : (Book.init : Book (Op V)).LegalAll2 (fun _ _ => True) (uipImpl st f).inpOk ops)
    {T : Type} [DecidableEq T] {ts : List T} (hts : ∀ t, t ∈ ts) (J : List (Op V) → Prop) (act : T → GAct (Op V) NetQ (Reply V (IPNet × V)))
    (ha : ∀ t, (act t).Legal J (fun _ _ => True) (uipImpl st f).inpOk UNetRight .free []) (sched : Nat → T) :
    LockedEnds (uipImpl st f) (unetRead f) UNetRight (UShows f) ops J act sched := by
  refine guard_ends (fun n => (uipImpl_lawful (V := V) st hf n)) ops hl (unetRead f) UNetRight (UShows f) ?_ ?_ hts J act ha sched
  · exact fun q h r l F ho => unetRead_ok hf q h r l F ho
  · rintro h r l F ⟨t, hT, hL, _⟩
    exact uShows_of_rep hf hT hL

end UIptree

section Domaintree
open Verif.Domain Verif.DomTree Verif.DomHeap
variable {V : Type}

/-- C88 (domaintree, a shared variable). -/
theorem C88_domaintree_variable (st : Bool) {f : Nat} (hk : 128 ≤ f) (ops : List (SOp (Op V)))
    (hl : (Book.init : Book (Op V)).LegalAll2 cowOk (inpOk st) ops)
    {T : Type} [DecidableEq T] {ts : List T} (hts : ∀ t, t ∈ ts) (act : T → Act (Op V) DomQ (Reply V (Bytes × V)))
    (ha : ∀ t, (act t).Legal cowOk (inpOk st) DomRight false ⟨1, []⟩) (k : T → Nat) (hm : ∀ t, (act t).AtMost (k t)) (hf : 2 * (ops.length + (ts.map k).sum) + 3 ≤ f) (sched : Nat → T) :
    EachRoot (domImpl st f) ops fun h r l => HubEnds (domImpl st f) (domRead f) DomRight (DomObserves f) l act (Hub.start h r act) sched := by
  refine hub_ends_atMost (n := ops.length + (ts.map k).sum) (domImpl_lawful (V := V) st hf) ops hl (domRead f) DomRight (DomObserves f) ?_ ?_ hts act ha k hm (Nat.le_refl _) sched
  · exact fun q h r l F hn ho => domRead_ok hf hk q h r l F hn ho
  · rintro h r l F hn ho
    exact domObserves_of_rep (by omega) hk ho

/-- C88 (domaintree, a read-write lock). -/
theorem C88_domaintree_lock (st : Bool) {f : Nat} (hk : 128 ≤ f) (ops : List (SOp (Op V)))
    (hl : (Book.init : Book (Op V)).LegalAll2 cowOk (inpOk st) ops)
    {T : Type} [DecidableEq T] {ts : List T} (hts : ∀ t, t ∈ ts) (J : List (Op V) → Prop) (act : T → GAct (Op V) DomQ (Reply V (Bytes × V)))
    (ha : ∀ t, (act t).Legal J cowOk (inpOk st) DomRight .free []) (k : T → Nat) (hm : ∀ t, (act t).AtMost (k t)) (hf : 2 * (ops.length + (ts.map k).sum) + 3 ≤ f) (sched : Nat → T) :
    LockedEnds (domImpl st f) (domRead f) DomRight (DomObserves f) ops J act sched := by
  refine guard_ends_atMost (n := ops.length + (ts.map k).sum) (domImpl_lawful (V := V) st hf) ops hl (domRead f) DomRight (DomObserves f) ?_ ?_ hts J act ha k hm (Nat.le_refl _) sched
  · exact fun q h r l F hn ho => domRead_ok hf hk q h r l F hn ho
  · rintro h r l F hn ho
    exact domObserves_of_rep (by omega) hk ho

end Domaintree

section Dltree
open Verif.DL Verif.DLHeap
variable {V : Type} [Inhabited V]

/-- C88 (dltree, a shared variable). -/
theorem C88_dltree_variable (st : Bool) {f : Nat} (ops : List (SOp (DL.Op V)))
    (hl : (Book.init : Book (DL.Op V)).LegalAll2 dlCow (dlInp st) ops)
    {T : Type} [DecidableEq T] {ts : List T} (hts : ∀ t, t ∈ ts) (act : T → Act (DL.Op V) LabelQ (Reply V (Bytes × V)))
    (ha : ∀ t, (act t).Legal dlCow (dlInp st) LabelRight false ⟨1, []⟩) (k : T → Nat) (hm : ∀ t, (act t).AtMost (k t)) (hf : 2 * (ops.length + (ts.map k).sum) + 3 ≤ f) (sched : Nat → T) :
    EachRoot (dlImpl st f) ops fun h r l => HubEnds (dlImpl st f) (labelRead f) LabelRight (DLShows f) l act (Hub.start h r act) sched := by
  refine hub_ends_atMost (n := ops.length + (ts.map k).sum) (dlImpl_lawful (V := V) st hf) ops hl (labelRead f) LabelRight (DLShows f) ?_ ?_ hts act ha k hm (Nat.le_refl _) sched
  · exact fun q h r l F hn ho => labelRead_ok hf q h r l F hn ho
  · rintro h r l F hn ho
    exact dlShows_of_obj (by omega) ho

/-- C88 (dltree, a read-write lock). -/
theorem C88_dltree_lock (st : Bool) {f : Nat} (ops : List (SOp (DL.Op V)))
    (hl : (Book.init : Book (DL.Op V)).LegalAll2 dlCow (dlInp st) ops)
    {T : Type} [DecidableEq T] {ts : List T} (hts : ∀ t, t ∈ ts) (J : List (DL.Op V) → Prop) (act : T → GAct (DL.Op V) LabelQ (Reply V (Bytes × V)))
    (ha : ∀ t, (act t).Legal J dlCow (dlInp st) LabelRight .free []) (k : T → Nat) (hm : ∀ t, (act t).AtMost (k t)) (hf : 2 * (ops.length + (ts.map k).sum) + 3 ≤ f) (sched : Nat → T) :
    LockedEnds (dlImpl st f) (labelRead f) LabelRight (DLShows f) ops J act sched := by
  refine guard_ends_atMost (n := ops.length + (ts.map k).sum) (dlImpl_lawful (V := V) st hf) ops hl (labelRead f) LabelRight (DLShows f) ?_ ?_ hts J act ha k hm (Nat.le_refl _) sched
  · exact fun q h r l F hn ho => labelRead_ok hf q h r l F hn ho
  · rintro h r l F hn ho
    exact dlShows_of_obj (by omega) ho

end Dltree

/-! ## Concrete cases -/

/-- Round and round. -/
def rounds (i : Nat) : Fin 3 := ⟨i % 3, Nat.mod_lt _ (by decide)⟩

example : Fair rounds := by
  intro t i
  refine ⟨3 * i + t.1, by omega, ?_⟩
  apply Fin.ext
  simp only [rounds]
  omega

section
open Verif.RB Verif.RBHeap

/-- The goroutines `counters` of C87 make two, two and one changes, ... -/
def counterCalls : Fin 3 → Nat
  | 0 => 2
  | 1 => 2
  | 2 => 1

example : ∀ t, (counters t).AtMost (counterCalls t) := by
  intro t
  match t with
  | 0 => exact fun _ => ⟨1, rfl, fun _ => ⟨0, rfl, trivial⟩⟩
  | 1 => exact fun _ => ⟨1, rfl, fun _ => ⟨0, rfl, fun _ => trivial⟩⟩
  | 2 => exact fun _ _ => ⟨0, rfl, fun _ => trivial⟩

/-- ... and have come to their end after 400 rounds. -/
example : (guardEnd (rbImpl compareBytes 2000).toO (kvRead compareBytes 2000) [.fresh, .inp 0 (.insert [2] 2), .inp 0 (.insert [1] 0)] 0 3 counters (firstTurns rounds 1200)).map
    (fun s => (List.finRange 3).map (guardOver s)) = some [true, true, true] := by decide +kernel

/-- A schedule that is not fair need not come to an end: goroutine 0 takes the lock and gets no turn any more. -/
example : (guardEnd (rbImpl compareBytes 2000).toO (kvRead compareBytes 2000) [.fresh, .inp 0 (.insert [2] 2), .inp 0 (.insert [1] 0)] 0 3 counters
    (firstTurns (fun i => if i = 0 then 0 else 1) 300)).map (fun s => ((List.finRange 3).map (guardOver s), s.writer)) = some ([false, false, false], some 0) := by decide +kernel

end

end Verif.Props
