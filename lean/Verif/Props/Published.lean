import Verif.Heap.Atomic
import Verif.Props.Goroutines

/-!
# Property theorems for goroutines sharing a variable (C81, C82)

After a history of the client (as in C57) one of its trees is put into a variable.  Any number of goroutines `T` load trees from there, read them, and under a lock
derive trees and store them (`Act`; what they do may depend on the answers they get).  What happens is recorded as events: the record
is what the goroutines were to do (`Follows`), and `HubPromise` says what they can rely on (C81).  Goroutines
that only ask the tree and change it by load, call and store under the lock share an atomic map (C82, `AtomicPromise`).
-/

namespace Verif.Props
open Verif Verif.Heap Prog

/-- C81 and C82 speak about every tree `r` of the history that may be put into the variable. -/
def EachRoot {D O R : Type} (I : OImpl D O R) (ops : List (SOp O)) (G : Heap D → R → List O → Prop) : Prop :=
  ∃ s, OStore.init.exec I ops = .ok s ∧ ∀ (i : Nat) r v, s.roots[i]? = some r → (Book.init.exec ops).vs[i]? = some v → G s.heap r v.2

/-- A read that has begun ends when its goroutine has had the turns the read would need alone, whatever the others do in the meantime. -/
def ReadsEnd {D T O R K A : Type} [DecidableEq T] (I : OImpl D O R) (Rd : K → R → Prog D A) (s : Hub D T O R K A) (sched : List T) : Prop :=
  ∀ pre post t j k p c, sched = pre ++ post → ((s.exec I Rd pre).th t).phase = .reading j k p c → p.left (s.exec I Rd pre).heap < post.count t →
    ∃ a es, (s.exec I Rd sched).log = (s.exec I Rd pre).log ++ es ∧ .answer t j k (some a) ∈ es

section Numtree
open Verif.Num Verif.NumHeap
variable {w : Nat} {V : Type} [LawfulKeySize w] [Inhabited V]

/-- C81 (numtree). -/
theorem C81_numtree {f : Nat} (hf : w + 2 ≤ f) (ops : List (SOp (NumOp w V)))
    (hl : (Book.init : Book (NumOp w V)).LegalAll2 (fun _ _ => True) (fun _ => (numImpl f w V).inpOk) ops)
    {T : Type} [DecidableEq T] (act : T → Act (NumOp w V) (NumQ w) (Reply V (ND w V)))
    (ha : ∀ t, (act t).Legal (fun _ _ => True) (fun _ => (numImpl f w V).inpOk) NumRight false ⟨1, []⟩) (sched : List T) :
    EachRoot (numImpl f w V).toO ops fun h r l => let s := Hub.start h r act
      Follows act (s.exec (numImpl f w V).toO (numRead f) sched).log (fun t => ((s.exec (numImpl f w V).toO (numRead f) sched).th t).phase.todo) ∧
      HubPromise (numImpl f w V).toO (numRead f) NumRight (fun h r l => Observes f h r (lastWrite (l.map NumOp.abs))) (Board.start l) (s.exec (numImpl f w V).toO (numRead f) sched) ∧ ReadsEnd (numImpl f w V).toO (numRead f) s sched := by
  refine hub_sound_follows (n := ops.length + sched.length) (Impl.toO_lawful (numImpl_lawful (V := V) hf _)) ops hl (numRead f) NumRight (fun h r l => Observes f h r (lastWrite (l.map NumOp.abs))) ?_ ?_ act ha sched (Nat.le_refl _)
  · exact fun q h r l F _ ho => numRead_ok hf q h r l F ho
  · rintro h r l F _ ⟨A, rfl, a1, a2, _, _⟩
    exact observes_of_rep hf a1 a2

/-- C82 (numtree). -/
theorem C82_numtree {f : Nat} (hf : w + 2 ≤ f) (ops : List (SOp (NumOp w V)))
    (hl : (Book.init : Book (NumOp w V)).LegalAll2 (fun _ _ => True) (fun _ => (numImpl f w V).inpOk) ops)
    {T : Type} [DecidableEq T] (script : T → List (Do (NumOp w V) (NumQ w)))
    (ha : ∀ t, UpdOk (fun _ _ => True) (script t)) (sched : List T) :
    EachRoot (numImpl f w V).toO ops fun h r l => AtomicPromise NumRight (fun h r l => Observes f h r (lastWrite (l.map NumOp.abs))) l script
      ((Hub.start h r fun t => scriptA (script t)).exec (numImpl f w V).toO (numRead f) sched) := by
  refine hub_atomic (n := ops.length + sched.length) (Impl.toO_lawful (numImpl_lawful (V := V) hf _)) ops hl (numRead f) NumRight (fun h r l => Observes f h r (lastWrite (l.map NumOp.abs))) ?_ ?_ script ha sched (Nat.le_refl _)
  · exact fun q h r l F _ ho => numRead_ok hf q h r l F ho
  · rintro h r l F _ ⟨A, rfl, a1, a2, _, _⟩
    exact observes_of_rep hf a1 a2

end Numtree

section Strtree
open Verif.RB Verif.RBHeap
variable {V : Type} [Inhabited V]

/-- C81 (strtree). -/
theorem C81_strtree {cmp : Bytes → Bytes → Int} (hc : LawfulCmp cmp) {f : Nat} (ops : List (SOp (KOp Bytes V)))
    (hl : (Book.init : Book (KOp Bytes V)).LegalAll2 (fun _ _ => True) (fun _ => (rbImpl (V := V) cmp f).inpOk) ops)
    {T : Type} [DecidableEq T] (act : T → Act (KOp Bytes V) KVQ (Reply V (Bytes × V)))
    (ha : ∀ t, (act t).Legal (fun _ _ => True) (fun _ => (rbImpl (V := V) cmp f).inpOk) (KVRight cmp) false ⟨1, []⟩) (sched : List T) (hf : 2 * (ops.length + sched.length) + 3 ≤ f) :
    EachRoot (rbImpl cmp f).toO ops fun h r l => let s := Hub.start h r act
      Follows act (s.exec (rbImpl cmp f).toO (kvRead cmp f) sched).log (fun t => ((s.exec (rbImpl cmp f).toO (kvRead cmp f) sched).th t).phase.todo) ∧
      HubPromise (rbImpl cmp f).toO (kvRead cmp f) (KVRight cmp) (KVObserves cmp f) (Board.start l) (s.exec (rbImpl cmp f).toO (kvRead cmp f) sched) ∧ ReadsEnd (rbImpl cmp f).toO (kvRead cmp f) s sched := by
  refine hub_sound_follows (n := ops.length + sched.length) (Impl.toO_lawful (rbImpl_lawful (V := V) hc.refl hf)) ops hl (kvRead cmp f) (KVRight cmp) (KVObserves cmp f) ?_ ?_ act ha sched (Nat.le_refl _)
  · exact fun q h r l F hn ho => kvRead_ok hc hf q h r l F hn ho
  · rintro h r l F hn ⟨A, rfl, a1, a2, _, _⟩
    exact kvObserves_of_rep hc (by omega) hn a1 a2

/-- C82 (strtree). -/
theorem C82_strtree {cmp : Bytes → Bytes → Int} (hc : LawfulCmp cmp) {f : Nat} (ops : List (SOp (KOp Bytes V)))
    (hl : (Book.init : Book (KOp Bytes V)).LegalAll2 (fun _ _ => True) (fun _ => (rbImpl (V := V) cmp f).inpOk) ops)
    {T : Type} [DecidableEq T] (script : T → List (Do (KOp Bytes V) KVQ))
    (ha : ∀ t, UpdOk (fun _ _ => True) (script t)) (sched : List T) (hf : 2 * (ops.length + sched.length) + 3 ≤ f) :
    EachRoot (rbImpl cmp f).toO ops fun h r l => AtomicPromise (KVRight cmp) (KVObserves cmp f) l script
      ((Hub.start h r fun t => scriptA (script t)).exec (rbImpl cmp f).toO (kvRead cmp f) sched) := by
  refine hub_atomic (n := ops.length + sched.length) (Impl.toO_lawful (rbImpl_lawful (V := V) hc.refl hf)) ops hl (kvRead cmp f) (KVRight cmp) (KVObserves cmp f) ?_ ?_ script ha sched (Nat.le_refl _)
  · exact fun q h r l F hn ho => kvRead_ok hc hf q h r l F hn ho
  · rintro h r l F hn ⟨A, rfl, a1, a2, _, _⟩
    exact kvObserves_of_rep hc (by omega) hn a1 a2

end Strtree

section Iptree
open Verif.IP Verif.IPHeap
variable {V : Type} [Inhabited V]

/-- C81 (iptree). -/
theorem C81_iptree (st : Bool) {f : Nat} (hf : 66 ≤ f) (ops : List (SOp (Op V)))
    (hl : (Book.init : Book (Op V)).LegalAll2 (fun _ _ => True) (ipImpl st f).inpOk ops)
    {T : Type} [DecidableEq T] (act : T → Act (Op V) NetQ (Reply (HV V) (IPNet × HV V)))
    (ha : ∀ t, (act t).Legal (fun _ _ => True) (ipImpl st f).inpOk NetRight false ⟨1, []⟩) (sched : List T) :
    EachRoot (ipImpl st f) ops fun h r l => let s := Hub.start h r act
      Follows act (s.exec (ipImpl st f) (netRead f) sched).log (fun t => ((s.exec (ipImpl st f) (netRead f) sched).th t).phase.todo) ∧
      HubPromise (ipImpl st f) (netRead f) NetRight (NetObserves f) (Board.start l) (s.exec (ipImpl st f) (netRead f) sched) ∧ ReadsEnd (ipImpl st f) (netRead f) s sched := by
  refine hub_sound_follows (n := ops.length + sched.length) (ipImpl_lawful (V := V) st hf _) ops hl (netRead f) NetRight (NetObserves f) ?_ ?_ act ha sched (Nat.le_refl _)
  · exact fun q h r l F _ ho => netRead_ok hf q h r l F ho
  · rintro h r l F _ ⟨t, ht, hT⟩
    exact netObserves_of_rep hf hT ht

/-- C82 (iptree). -/
theorem C82_iptree (st : Bool) {f : Nat} (hf : 66 ≤ f) (ops : List (SOp (Op V)))
    (hl : (Book.init : Book (Op V)).LegalAll2 (fun _ _ => True) (ipImpl st f).inpOk ops)
    {T : Type} [DecidableEq T] (script : T → List (Do (Op V) NetQ))
    (ha : ∀ t, UpdOk (fun _ _ => True) (script t)) (sched : List T) :
    EachRoot (ipImpl st f) ops fun h r l => AtomicPromise NetRight (NetObserves f) l script
      ((Hub.start h r fun t => scriptA (script t)).exec (ipImpl st f) (netRead f) sched) := by
  refine hub_atomic (n := ops.length + sched.length) (ipImpl_lawful (V := V) st hf _) ops hl (netRead f) NetRight (NetObserves f) ?_ ?_ script ha sched (Nat.le_refl _)
  · exact fun q h r l F _ ho => netRead_ok hf q h r l F ho
  · rintro h r l F _ ⟨t, ht, hT⟩
    exact netObserves_of_rep hf hT ht

end Iptree

section UIptree
open Verif.IP (Op OpNet)
open Verif.UIPHeap (UD uipImpl uipImpl_lawful)
variable {V : Type} [Inhabited V]

/-- C81 (generated IP trees). -/
theorem C81_uiptree (st : Bool) {f : Nat} (hf : 66 ≤ f) (ops : List (SOp (Op V)))
    (hl : (Book.init : Book (Op V)).LegalAll2 (fun _ _ => True) (uipImpl st f).inpOk ops)
    {T : Type} [DecidableEq T] (act : T → Act (Op V) NetQ (Reply V (IPNet × V)))
    (ha : ∀ t, (act t).Legal (fun _ _ => True) (uipImpl st f).inpOk UNetRight false ⟨1, []⟩) (sched : List T) :
    EachRoot (uipImpl st f) ops fun h r l => let s := Hub.start h r act
      Follows act (s.exec (uipImpl st f) (unetRead f) sched).log (fun t => ((s.exec (uipImpl st f) (unetRead f) sched).th t).phase.todo) ∧
      HubPromise (uipImpl st f) (unetRead f) UNetRight (UShows f) (Board.start l) (s.exec (uipImpl st f) (unetRead f) sched) ∧ ReadsEnd (uipImpl st f) (unetRead f) s sched := by
  refine hub_sound_follows (n := ops.length + sched.length) (uipImpl_lawful (V := V) st hf _) ops hl (unetRead f) UNetRight (UShows f) ?_ ?_ act ha sched (Nat.le_refl _)
  · exact fun q h r l F _ ho => unetRead_ok hf q h r l F ho
  · rintro h r l F _ ⟨t, hT, hL, _⟩
    exact uShows_of_rep hf hT hL

/-- C82 (generated IP trees). -/
theorem C82_uiptree (st : Bool) {f : Nat} (hf : 66 ≤ f) (ops : List (SOp (Op V)))
    (hl : (Book.init : Book (Op V)).LegalAll2 (fun _ _ => True) (uipImpl st f).inpOk ops)
    {T : Type} [DecidableEq T] (script : T → List (Do (Op V) NetQ))
    (ha : ∀ t, UpdOk (fun _ _ => True) (script t)) (sched : List T) :
    EachRoot (uipImpl st f) ops fun h r l => AtomicPromise UNetRight (UShows f) l script
      ((Hub.start h r fun t => scriptA (script t)).exec (uipImpl st f) (unetRead f) sched) := by
  refine hub_atomic (n := ops.length + sched.length) (uipImpl_lawful (V := V) st hf _) ops hl (unetRead f) UNetRight (UShows f) ?_ ?_ script ha sched (Nat.le_refl _)
  · exact fun q h r l F _ ho => unetRead_ok hf q h r l F ho
  · rintro h r l F _ ⟨t, hT, hL, _⟩
    exact uShows_of_rep hf hT hL

end UIptree

section Domaintree
open Verif.Domain Verif.DomTree Verif.DomHeap
variable {V : Type}

/-- C81 (domaintree). -/
theorem C81_domaintree (st : Bool) {f : Nat} (hk : 128 ≤ f) (ops : List (SOp (Op V)))
    (hl : (Book.init : Book (Op V)).LegalAll2 cowOk (inpOk st) ops)
    {T : Type} [DecidableEq T] (act : T → Act (Op V) DomQ (Reply V (Bytes × V)))
    (ha : ∀ t, (act t).Legal cowOk (inpOk st) DomRight false ⟨1, []⟩) (sched : List T) (hf : 2 * (ops.length + sched.length) + 3 ≤ f) :
    EachRoot (domImpl st f) ops fun h r l => let s := Hub.start h r act
      Follows act (s.exec (domImpl st f) (domRead f) sched).log (fun t => ((s.exec (domImpl st f) (domRead f) sched).th t).phase.todo) ∧
      HubPromise (domImpl st f) (domRead f) DomRight (DomObserves f) (Board.start l) (s.exec (domImpl st f) (domRead f) sched) ∧ ReadsEnd (domImpl st f) (domRead f) s sched := by
  refine hub_sound_follows (n := ops.length + sched.length) (domImpl_lawful (V := V) st hf) ops hl (domRead f) DomRight (DomObserves f) ?_ ?_ act ha sched (Nat.le_refl _)
  · exact fun q h r l F hn ho => domRead_ok hf hk q h r l F hn ho
  · rintro h r l F hn ho
    exact domObserves_of_rep (by omega) hk ho

/-- C82 (domaintree). -/
theorem C82_domaintree (st : Bool) {f : Nat} (hk : 128 ≤ f) (ops : List (SOp (Op V)))
    (hl : (Book.init : Book (Op V)).LegalAll2 cowOk (inpOk st) ops)
    {T : Type} [DecidableEq T] (script : T → List (Do (Op V) DomQ))
    (ha : ∀ t, UpdOk cowOk (script t)) (sched : List T) (hf : 2 * (ops.length + sched.length) + 3 ≤ f) :
    EachRoot (domImpl st f) ops fun h r l => AtomicPromise DomRight (DomObserves f) l script
      ((Hub.start h r fun t => scriptA (script t)).exec (domImpl st f) (domRead f) sched) := by
  refine hub_atomic (n := ops.length + sched.length) (domImpl_lawful (V := V) st hf) ops hl (domRead f) DomRight (DomObserves f) ?_ ?_ script ha sched (Nat.le_refl _)
  · exact fun q h r l F hn ho => domRead_ok hf hk q h r l F hn ho
  · rintro h r l F hn ho
    exact domObserves_of_rep (by omega) hk ho

end Domaintree

section Dltree
open Verif.DL Verif.DLHeap
variable {V : Type} [Inhabited V]

/-- C81 (dltree). -/
theorem C81_dltree (st : Bool) {f : Nat} (ops : List (SOp (DL.Op V)))
    (hl : (Book.init : Book (DL.Op V)).LegalAll2 dlCow (dlInp st) ops)
    {T : Type} [DecidableEq T] (act : T → Act (DL.Op V) LabelQ (Reply V (Bytes × V)))
    (ha : ∀ t, (act t).Legal dlCow (dlInp st) LabelRight false ⟨1, []⟩) (sched : List T) (hf : 2 * (ops.length + sched.length) + 3 ≤ f) :
    EachRoot (dlImpl st f) ops fun h r l => let s := Hub.start h r act
      Follows act (s.exec (dlImpl st f) (labelRead f) sched).log (fun t => ((s.exec (dlImpl st f) (labelRead f) sched).th t).phase.todo) ∧
      HubPromise (dlImpl st f) (labelRead f) LabelRight (DLShows f) (Board.start l) (s.exec (dlImpl st f) (labelRead f) sched) ∧ ReadsEnd (dlImpl st f) (labelRead f) s sched := by
  refine hub_sound_follows (n := ops.length + sched.length) (dlImpl_lawful (V := V) st hf) ops hl (labelRead f) LabelRight (DLShows f) ?_ ?_ act ha sched (Nat.le_refl _)
  · exact fun q h r l F hn ho => labelRead_ok hf q h r l F hn ho
  · rintro h r l F hn ho
    exact dlShows_of_obj (by omega) ho

/-- C82 (dltree). -/
theorem C82_dltree (st : Bool) {f : Nat} (ops : List (SOp (DL.Op V)))
    (hl : (Book.init : Book (DL.Op V)).LegalAll2 dlCow (dlInp st) ops)
    {T : Type} [DecidableEq T] (script : T → List (Do (DL.Op V) LabelQ))
    (ha : ∀ t, UpdOk dlCow (script t)) (sched : List T) (hf : 2 * (ops.length + sched.length) + 3 ≤ f) :
    EachRoot (dlImpl st f) ops fun h r l => AtomicPromise LabelRight (DLShows f) l script
      ((Hub.start h r fun t => scriptA (script t)).exec (dlImpl st f) (labelRead f) sched) := by
  refine hub_atomic (n := ops.length + sched.length) (dlImpl_lawful (V := V) st hf) ops hl (labelRead f) LabelRight (DLShows f) ?_ ?_ script ha sched (Nat.le_refl _)
  · exact fun q h r l F hn ho => labelRead_ok hf q h r l F hn ho
  · rintro h r l F hn ho
    exact dlShows_of_obj (by omega) ho

end Dltree

/-! ## Concrete cases -/

/-- The record of a schedule, after a history whose tree `i` was put into the variable. -/
def hubLog {D O R K A : Type} (I : OImpl D O R) (Rd : K → R → Prog D A) (ops : List (SOp O)) (i n : Nat) (act : Fin n → Act O K A) (sched : List (Fin n)) :
    Option (Hub D (Fin n) O R K A) :=
  match OStore.init.exec I ops with
  | .ok s => (s.roots[i]?).map fun r => (Hub.start s.heap r act).exec I Rd sched
  | .error _ => none

/-- Whether goroutine `t` has come to its end. -/
def Hub.over {D T O R K A : Type} (s : Hub D T O R K A) (t : T) : Bool := match (s.th t).phase with
  | .idle .done => true
  | _ => false

/-- What the goroutines have when the schedule is over: for every goroutine the answers it got, if it has come to its end. -/
def hubFinals {D O R K A : Type} (I : OImpl D O R) (Rd : K → R → Prog D A) (ops : List (SOp O)) (i n : Nat) (act : Fin n → Act O K A) (sched : List (Fin n)) :
    Option (List (Option (List (Option A)))) :=
  (hubLog I Rd ops i n act sched).map fun s => (List.finRange n).map fun t => if Hub.over s t then some (answersOf t s.log) else none

section
open Verif.RB Verif.RBHeap

/-- Goroutine 0 inserts twice and looks at the result, goroutine 1 looks at the variable twice, goroutine 2 deletes. -/
def kvVar : Fin 3 → List (Do (KOp Bytes Nat) KVQ)
  | 0 => [.upd (.insert [3] 3), .upd (.insert [4] 4), .get .list]
  | 1 => [.get .list, .get .list]
  | 2 => [.upd (.delete [1]), .get (.get [1])]

/-- Goroutine 1 is slow, the others take turns. -/
def slowTurns : List (Fin 3) := (List.range 460).map fun i => if i % 16 = 15 then 1 else if i % 2 = 0 then 0 else 2

/-- Goroutine 1 sees the variable before and after the first insertion; goroutine 0 sees the deletion of goroutine 2. -/
example : hubFinals (rbImpl compareBytes 1000).toO (kvRead compareBytes 1000) kvShared 2 3 (fun t => scriptA (kvVar t)) slowTurns =
    some [some [some (.list [([2], 2), ([3], 3), ([4], 4)])], some [some (.list [([1], 1), ([2], 2)]), some (.list [([1], 1), ([2], 2), ([3], 3)])],
      some [some (.val none)]] := by decide +kernel

example : ∀ t, UpdOk (fun _ _ => True) (kvVar t) := by
  intro t
  match t with
  | 0 => exact ⟨fun _ => trivial, fun _ => trivial, trivial⟩
  | 1 => trivial
  | 2 => exact ⟨fun _ => trivial, trivial⟩

/-- Not covered, and wrong: without the lock a change is lost. -/
def kvCareless : Fin 2 → Act (KOp Bytes Nat) KVQ (Reply Nat (Bytes × Nat))
  | 0 => .load (.call (.cow 0 (.insert [3] 3)) (.store 1 (.load (.read 2 .list fun _ => .done))))
  | 1 => .load (.call (.cow 0 (.insert [4] 4)) (.store 1 (.load (.read 2 .list fun _ => .done))))

example : hubFinals (rbImpl compareBytes 600).toO (kvRead compareBytes 600) kvShared 2 2 kvCareless (turns 2 240 (by decide)) =
    some [some [some (.list [([1], 1), ([2], 2), ([4], 4)])], some [some (.list [([1], 1), ([2], 2), ([4], 4)])]] := by decide +kernel

/-- A goroutine that refills a map: under the lock it fills a fresh tree in place, publishes it, and looks at it. -/
def refill : Act (KOp Bytes Nat) KVQ (Reply Nat (Bytes × Nat)) :=
  .lock (.call .fresh (.call (.inp 0 (.insert [9] 9)) (.call (.inp 0 (.insert [8] 8)) (.store 0 (.unlock (.read 0 .list fun _ => .done))))))

/-- A goroutine that uses the map as a cache: it looks for key 9 and, if there is none, takes the lock, looks again, and only then puts `v` there. -/
def cache (v : Nat) : Act (KOp Bytes Nat) KVQ (Reply Nat (Bytes × Nat)) :=
  .load (.read 0 (.get [9]) fun
    | some (.val (some _)) => .done
    | _ => .lock (.load (.read 1 (.get [9]) fun
      | some (.val (some _)) => .unlock .done
      | _ => .call (.cow 1 (.insert [9] v)) (.store 2 (.unlock (.read 2 .list fun _ => .done))))))

/-- Both goroutines find nothing; the second to have the lock finds the key put there by the first. -/
example : hubFinals (rbImpl compareBytes 600).toO (kvRead compareBytes 600) kvShared 2 2 (fun t => cache (5 + t.val)) (turns 2 240 (by decide)) =
    some [some [some (.val none), some (.val none), some (.list [([1], 1), ([2], 2), ([9], 5)])], some [some (.val none), some (.val (some 5))]] := by decide +kernel

/-- With `refill` and `cache` together. -/
example : hubFinals (rbImpl compareBytes 600).toO (kvRead compareBytes 600) kvShared 2 2 (fun | 0 => refill | 1 => cache 5) (turns 2 240 (by decide)) =
    some [some [some (.list [([8], 8), ([9], 9)])], some [some (.val none), some (.val (some 9))]] := by decide +kernel

example (iok : List (KOp Bytes Nat) → KOp Bytes Nat → Prop) (h : ∀ l o, iok l o) : refill.Legal (fun _ _ => True) iok (KVRight compareBytes) false ⟨1, []⟩ := by
  refine ⟨rfl, rfl, trivial, trivial, rfl, fun v hv => ⟨h _ _, ?_⟩, ?_, rfl, fun v hv => ⟨h _ _, ?_⟩, ?_, rfl, by decide, rfl, ?_⟩
  · intro j u hj hu
    rcases j with _ | j <;> simp [Book.flat, Book.step] at hu
    exact absurd rfl hj
  · intro v hv
    simp [Book.flat, Book.step] at hv
    subst hv; decide
  · intro j u hj hu
    rcases j with _ | j <;> simp [Book.flat, Book.step] at hu
    exact absurd rfl hj
  · intro v hv
    simp [Book.flat, Book.step] at hv
    subst hv; decide
  · intro _ _
    rfl

example (v : Nat) (iok : List (KOp Bytes Nat) → KOp Bytes Nat → Prop) : (cache v).Legal (fun _ _ => True) iok (KVRight compareBytes) false ⟨1, []⟩ := by
  have hput : ∀ l m : List (KOp Bytes Nat), Act.Legal (fun _ _ => True) iok (KVRight compareBytes) true ⟨1, [(0, l), (0, m)]⟩
      (.call (.cow 1 (.insert [9] v)) (.store 2 (.unlock (.read 2 .list fun _ => .done)))) :=
    fun l m => ⟨rfl, fun _ _ => trivial, trivial, rfl, by simp [Book.step], rfl, fun _ _ => rfl⟩
  have hlook : ∀ l : List (KOp Bytes Nat), Act.Legal (fun _ _ => True) iok (KVRight compareBytes) false ⟨1, [(0, l)]⟩ (.lock (.load (.read 1 (.get [9]) fun
      | some (.val (some _)) => .unlock .done
      | _ => .call (.cow 1 (.insert [9] v)) (.store 2 (.unlock (.read 2 .list fun _ => .done)))))) := by
    refine fun l => ⟨rfl, fun m a _ => ?_⟩
    match a with
    | .val (some _) => exact ⟨rfl, rfl⟩
    | .val none => exact hput l m
    | .list _ => exact hput l m
  intro l a _
  match a with
  | .val (some _) => exact rfl
  | .val none => exact hlook l
  | .list _ => exact hlook l

end

section
open Verif.Num Verif.NumHeap

/-- One goroutine inserts below a prefix and looks, one deletes the prefix and looks. -/
def numVar : Fin 2 → List (Do (NumOp 32 Nat) (NumQ 32))
  | 0 => [.upd (.insert 0x0A010000#32 16 2), .get (.longest 0x0A010203#32 32), .get (.exact 0x0A000000#32 8)]
  | 1 => [.get (.longest 0x0A010203#32 32), .upd (.delete 0x0A000000#32 8), .get (.longest 0x0A010203#32 32)]

example : hubFinals (numImpl 34 32 Nat).toO (numRead 34) [.fresh, .cow 0 (.insert 0x0A000000#32 8 1)] 1 2 (fun t => scriptA (numVar t)) (turns 2 120 (by decide)) =
    some [some [some (.val (some 2)), some (.val none)], some [some (.val (some 1)), some (.val none)]] := by decide +kernel

example : ∀ t, UpdOk (fun _ _ => True) (numVar t) := by
  intro t
  match t with
  | 0 => exact ⟨fun _ => trivial, trivial⟩
  | 1 => exact ⟨fun _ => trivial, trivial⟩

end

section
open Verif.IP Verif.IPHeap

/-- One goroutine inserts an IPv6 network below another, one deletes everything below 2001::/16 (which the generated packages do not, see C48). -/
def netVar : Fin 2 → List (Do (Op Nat) NetQ)
  | 0 => [.upd (.insertNet (some (net6 0x20 0x01 0 1 128)) 2), .get (.get (some (net6 0x20 0x01 0 1 128)))]
  | 1 => [.get (.get (some (net6 0x20 0x01 0 1 128))), .upd (.deleteByNet (some (net6 0x20 0x01 0 0 16))), .get (.get (some (net6 0x20 0x01 0 1 128)))]

example : hubFinals (ipImpl true 66) (netRead 66) [.fresh, .cow 0 (.insertNet (some (net6 0x20 0x01 0 0 64)) 1)] 1 2 (fun t => scriptA (netVar t)) (turns 2 200 (by decide)) =
    some [some [some (.val (some (.user 2)))], some [some (.val (some (.user 1))), some (.val none)]] := by decide +kernel

example : hubFinals (UIPHeap.uipImpl true 66) (unetRead 66) [.fresh, .cow 0 (.insertNet (some (net6 0x20 0x01 0 0 64)) 1)] 1 2 (fun t => scriptA (netVar t)) (turns 2 200 (by decide)) =
    some [some [some (.val (some 2))], some [some (.val (some 1)), some (.val (some 2))]] := by decide +kernel

example : ∀ t, UpdOk (fun _ _ => True) (netVar t) := by
  intro t
  match t with
  | 0 => exact ⟨fun _ => trivial, trivial⟩
  | 1 => exact ⟨fun _ => trivial, trivial⟩

end

section
open Verif.Domain Verif.DomTree Verif.DomHeap

/-- One goroutine inserts below a domain, one deletes it with everything below. -/
def domVar : Fin 2 → List (Do (Op Nat) DomQ)
  | 0 => [.upd (.insert (nm "a.b.com") 2), .get .list]
  | 1 => [.get .list, .upd (.deleteSub (nm "com")), .get .list]

example : hubFinals (domImpl true 1000) (domRead 1000) [.fresh, .cow 0 (.insert (nm "b.com") 1)] 1 2 (fun t => scriptA (domVar t)) (turns 2 300 (by decide)) =
    some [some [some (.list [(txt "b.com", 1), (txt "a.b.com", 2)])], some [some (.list [(txt "b.com", 1)]), some (.list [])]] := by decide +kernel

example : ∀ t, UpdOk cowOk (domVar t) := by
  intro t
  match t with
  | 0 => exact ⟨fun _ => ⟨⟨txt "a.b.com", by decide +kernel⟩, trivial⟩, trivial⟩
  | 1 =>
    refine ⟨fun _ => ⟨⟨txt "com", by decide +kernel⟩, fun ls hl h => ?_⟩, trivial⟩
    rw [show (nm "com").labels = some [txt "COM"] by decide +kernel] at hl
    cases hl; cases h

end

section
open Verif.DL Verif.DLHeap

/-- One goroutine adds a raw label, one deletes a label by its text. -/
def labelVar : Fin 2 → List (Do (DL.Op Nat) LabelQ)
  | 0 => [.upd (.rawInsert [66] 2), .get .list]
  | 1 => [.get (.raw [65]), .upd (.delete [97]), .get .list]

example : hubFinals (dlImpl true 600) (labelRead 600) [.fresh, .cow 0 (.insert [97] 1)] 1 2 (fun t => scriptA (labelVar t)) (turns 2 200 (by decide)) =
    some [some [some (.list [([65], 1), ([66], 2)])], some [some (.val (some 1)), some (.list [([66], 2)])]] := by decide +kernel

example : ∀ t, UpdOk dlCow (labelVar t) := by
  intro t
  match t with
  | 0 => exact ⟨fun _ => ⟨_, .rawInsert⟩, trivial⟩
  | 1 => exact ⟨fun _ => ⟨_, .delete (means_plain (a := 97) (dot := false) (by decide))⟩, trivial⟩

end

end Verif.Props
