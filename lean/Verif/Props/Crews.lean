import Verif.Props.Iterate
import Verif.Pipe.CrewExec

/-!
# Property theorems for several goroutines that loop over Enumerate (C65)

After a history of the client (as in C05, C13, C33, C45) any number of goroutines start with the trees the client holds.  Each runs a
script of its own as in C63: calls, reads, and loops over `Enumerate` with scripts as bodies; each loop starts goroutines of the
library.  No script changes in place a tree that was there at the start (or one it loops over).  All memory accesses and
channel operations of all of them interleave in any way.
-/

namespace Verif.Props
open Verif Verif.Heap Verif.Pipe Prog

/-- In every interleaving: nothing panics, no goroutine is about to write a cell that another can see, a goroutine of the client that has not
ended can move whatever the others do and ends after some number of steps of its own, with no goroutine of the library left over, and its
script comes out like straight-line code run by it alone (see `Iterates`); the cells there were at the start stay as they were. -/
def IterateAll {D O R K A B E T : Type} [DecidableEq T] (P : K → List O → A → Prop) (Ob : Heap D → R → List O → Prop) (L : List O → List E → Prop) (b : Book O) (sc : T → Script O K E)
    (m : T → Main D (Cell D) B (List (Option A) × List R)) (h : Heap D) : Prop :=
  CrewEnds id h m fun t x h' => ∃ l, (sc t).Unrolls L b l ∧ b.Answers P l x.1 ∧ x.2.length = (b.after l).vs.length ∧
    ∀ (i : Nat) r v, x.2[i]? = some r → (b.after l).vs[i]? = some v → Ob h' r v.2

section Numtree
open Verif.Num Verif.NumHeap
variable {w : Nat} {V : Type} [LawfulKeySize w] [Inhabited V]

/-- C65 (numtree). -/
theorem C65_numtree {f rounds : Nat} (hf : w + 2 ≤ f) (hr : 2 ^ (w + 1) ≤ rounds) (ops : List (SOp (NumOp w V)))
    (hl : (Book.init : Book (NumOp w V)).LegalAll2 (numImpl f w V).toO.cowOk (numImpl f w V).toO.inpOk ops) {T : Type} [DecidableEq T] (sc : T → Script (NumOp w V) (NumQ w) (ND w V))
    (hs : ∀ t, (sc t).Legal (numImpl f w V).toO.cowOk (numImpl f w V).toO.inpOk (fun l es => NumRight .list l (.list es)) (fun _ => True) (List.range (Book.init.exec ops).next) (Book.init.exec ops) ops.length) :
    ∃ s, OStore.init.exec (numImpl f w V).toO ops = .ok s ∧
      IterateAll NumRight (fun h r l => Observes f h r (lastWrite (l.map NumOp.abs))) (fun l es => NumRight .list l (.list es)) (Book.init.exec ops) sc
        (fun t => (sc t).main (numImpl f w V).toO (numRead f) (numLoop f rounds w V) ([], s.roots) .ret) s.heap := by
  unfold IterateAll
  refine obj_crew (N := fun _ => True) (fun n _ => Impl.toO_lawful (numImpl_lawful (V := V) hf n)) ops trivial hl (numRead f) NumRight (fun h r l => Observes f h r (lastWrite (l.map NumOp.abs)))
    (fun n _ q h r l F _ ho => numRead_ok hf q h r l F ho) ?_ (fun n _ => numLoop_lawful hf hr n) sc hs
  rintro n _ h r l F _ ⟨A, rfl, a1, a2, _, _⟩
  exact observes_of_rep hf a1 a2

end Numtree

section Strtree
open Verif.RB Verif.RBHeap
variable {V : Type} [Inhabited V]

/-- C65 (strtree); `f` bounds the depth of recursion and the rounds of loops. -/
theorem C65_strtree {cmp : Bytes → Bytes → Int} (hc : LawfulCmp cmp) (ops : List (SOp (KOp Bytes V)))
    (hl : (Book.init : Book (KOp Bytes V)).LegalAll2 (fun _ _ => True) kvInp ops) {k : Nat} (sc : Fin k → Script (KOp Bytes V) KVQ (Bytes × V))
    (hs : ∀ t, (sc t).Legal (fun _ _ => True) kvInp (fun l es => KVRight cmp .list l (.list es)) (fun _ => True) (List.range (Book.init.exec ops).next) (Book.init.exec ops) ops.length) :
    ∃ f0, ∀ f, f0 ≤ f → ∃ s, OStore.init.exec (rbImpl cmp f).toO ops = .ok s ∧
      IterateAll (KVRight cmp) (KVObserves cmp f) (fun l es => KVRight cmp .list l (.list es)) (Book.init.exec ops) sc
        (fun t => (sc t).main (rbImpl cmp f).toO (kvRead cmp f) (strLoop f f V) ([], s.roots) .ret) s.heap := by
  unfold IterateAll
  refine obj_crew_fuel (I := fun f => (rbImpl cmp f).toO) (L' := fun l es => KVRight cmp .list l (.list es) ∧ es = RB.enumerate ((RB.run cmp l).getD .nil))
    (fun _ => rfl) (fun f => ?_) ops hl (kvRead cmp) (KVRight cmp) (KVObserves cmp) (Lp := fun f => strLoop f f V) (fun _ _ h => h.1)
    (fun l es es' h h' => h.2.trans h'.2.symm) (fun n => ⟨2 * n + 3, fun f hf => ⟨Impl.toO_lawful (rbImpl_lawful (V := V) hc.refl hf), ?_, ?_, ?_⟩⟩) sc hs
  · funext l o
    cases o <;> rfl
  · exact fun q h r l F hn ho => kvRead_ok hc hf q h r l F hn ho
  · rintro h r l F hn ⟨A, rfl, a1, a2, _, _⟩
    exact kvObserves_of_rep hc (by omega) hn a1 a2
  · exact strLoop_lawful hc hf (by omega)

end Strtree

section Iptree
open Verif.IP Verif.IPHeap
variable {V : Type} [Inhabited V]

/-- C65 (iptree). -/
theorem C65_iptree (st : Bool) {f rounds : Nat} (hf : 66 ≤ f) (hr : 2 ^ 131 < rounds) (ops : List (SOp (Op V)))
    (hl : (Book.init : Book (Op V)).LegalAll2 (fun _ _ => True) (ipImpl st f).inpOk ops) {T : Type} [DecidableEq T] (sc : T → Script (Op V) NetQ (IPNet × HV V))
    (hs : ∀ t, (sc t).Legal (fun _ _ => True) (ipImpl st f).inpOk (fun l es => NetRight .list l (.list es)) (fun _ => True) (List.range (Book.init.exec ops).next) (Book.init.exec ops) ops.length) :
    ∃ s, OStore.init.exec (ipImpl st f) ops = .ok s ∧
      IterateAll NetRight (NetObserves f) (fun l es => NetRight .list l (.list es)) (Book.init.exec ops) sc
        (fun t => (sc t).main (ipImpl st f) (netRead f) (ipLoop f rounds V) ([], s.roots) .ret) s.heap := by
  unfold IterateAll
  refine obj_crew (N := fun _ => True) (fun n _ => ipImpl_lawful (V := V) st hf n) ops trivial hl (netRead f) NetRight _
    (fun n _ q h r l F _ ho => netRead_ok hf q h r l F ho) ?_ (fun n _ => ipLoop_lawful st hf hr n) sc hs
  rintro n _ h r l F _ ⟨t, ht, hT⟩
  exact netObserves_of_rep hf hT ht

end Iptree

section UIptree
open Verif.IP Verif.UIPHeap
variable {V : Type} [Inhabited V]

/-- C65 (generated IP trees). -/
theorem C65_uiptree (st : Bool) {f rounds : Nat} (hf : 66 ≤ f) (hr : 2 ^ 131 < rounds) (ops : List (SOp (Op V)))
    (hl : (Book.init : Book (Op V)).LegalAll2 (fun _ _ => True) (uipImpl st f).inpOk ops) {T : Type} [DecidableEq T] (sc : T → Script (Op V) NetQ (IPNet × V))
    (hs : ∀ t, (sc t).Legal (fun _ _ => True) (uipImpl st f).inpOk (fun l es => UNetRight .list l (.list es)) (fun _ => True) (List.range (Book.init.exec ops).next) (Book.init.exec ops) ops.length) :
    ∃ s, OStore.init.exec (uipImpl st f) ops = .ok s ∧
      IterateAll UNetRight (UShows f) (fun l es => UNetRight .list l (.list es)) (Book.init.exec ops) sc
        (fun t => (sc t).main (uipImpl st f) (unetRead f) (uipLoop f rounds V) ([], s.roots) .ret) s.heap := by
  unfold IterateAll
  refine obj_crew (N := fun _ => True) (fun n _ => uipImpl_lawful (V := V) st hf n) ops trivial hl (unetRead f) UNetRight _
    (fun n _ q h r l F _ ho => unetRead_ok hf q h r l F ho) ?_ (fun n _ => uipLoop_lawful st hf hr n) sc hs
  rintro n _ h r l F _ ⟨t, hT, hL, _⟩
  exact uShows_of_rep hf hT hL

end UIptree

section Domaintree
open Verif.DomTree Verif.DomHeap
variable {V : Type}

/-- C65 (domaintree). -/
theorem C65_domaintree (st : Bool) (ops : List (SOp (Op V))) (hl : (Book.init : Book (Op V)).LegalAll2 cowOk (inpOk st) ops) {k : Nat} (sc : Fin k → Script (Op V) DomQ (Bytes × V))
    (hs : ∀ t, (sc t).Legal cowOk (inpOk st) (fun l es => DomRight .list l (.list es)) (fun _ => True) (List.range (Book.init.exec ops).next) (Book.init.exec ops) ops.length) :
    ∃ f0, ∀ f, f0 ≤ f → ∃ s, OStore.init.exec (domImpl st f) ops = .ok s ∧
      IterateAll DomRight (DomObserves f) (fun l es => DomRight .list l (.list es)) (Book.init.exec ops) sc
        (fun t => (sc t).main (domImpl st f) (domRead f) (domLoop f f V) ([], s.roots) .ret) s.heap := by
  unfold IterateAll
  refine obj_crew_fuel (I := domImpl st)
    (L' := fun l es => DomRight .list l (.list es) ∧ (DomTree.run (DomHeap.start0 st) l).bind DomTree.Enumerate = some es)
    (fun _ => rfl) (fun _ => rfl) ops hl domRead DomRight DomObserves (Lp := fun f => domLoop f f V) (fun _ _ h => h.1)
    (fun l es es' h h' => ?_) (fun n => ⟨(n + 2) ^ 128 + 2 * n + 131, fun f hf => ⟨domImpl_lawful (V := V) st (by omega), ?_, ?_, ?_⟩⟩) sc hs
  · have := h.2.symm.trans h'.2
    cases this; rfl
  · exact fun q h r l F hn ho => domRead_ok (n0 := n) (by omega) (by omega) q h r l F hn ho
  · exact fun h r l F hn ho => domObserves_of_rep (by omega) (by omega) ho
  · exact domLoop_lawful st (by omega) (by omega) (by omega)

end Domaintree

section Dltree
open Verif.DL Verif.DLHeap
variable {V : Type} [Inhabited V]

/-- C65 (dltree), loops over RawEnumerate. -/
theorem C65_dltree_raw (st : Bool) (ops : List (SOp (DL.Op V))) (hl : (Book.init : Book (DL.Op V)).LegalAll2 dlCow (dlInp st) ops)
    {k : Nat} (sc : Fin k → Script (DL.Op V) LabelQ (Bytes × V))
    (hs : ∀ t, (sc t).Legal dlCow (dlInp st) (fun l es => LabelRight .list l (.list es)) (fun _ => True) (List.range (Book.init.exec ops).next) (Book.init.exec ops) ops.length) :
    ∃ f0, ∀ f, f0 ≤ f → ∃ s, OStore.init.exec (dlImpl st f) ops = .ok s ∧
      IterateAll LabelRight (DLShows f) (fun l es => LabelRight .list l (.list es)) (Book.init.exec ops) sc
        (fun t => (sc t).main (dlImpl st f) (labelRead f) (dlRawLoop f f V) ([], s.roots) .ret) s.heap := by
  unfold IterateAll
  refine obj_crew_fuel (I := dlImpl st) (L' := fun l es => LabelRight .list l (.list es) ∧ (DL.run (DLHeap.start0 st) l).map RawEnumerate = some es)
    (fun _ => rfl) (fun _ => rfl) ops hl labelRead LabelRight DLShows (Lp := fun f => dlRawLoop f f V) (fun _ _ h => h.1)
    (fun l es es' h h' => ?_) (fun n => ⟨2 * n + 3, fun f hf => ⟨dlImpl_lawful (V := V) st hf, ?_, ?_, ?_⟩⟩) sc hs
  · have := h.2.symm.trans h'.2
    cases this; rfl
  · exact fun q h r l F hn ho => labelRead_ok hf q h r l F hn ho
  · exact fun h r l F hn ho => dlShows_of_obj (by omega) ho
  · exact dlRawLoop_lawful st hf (by omega)

/-- C65 (dltree), loops over Enumerate, which needs stored labels of at most 63 bytes. -/
theorem C65_dltree (st : Bool) (ops : List (SOp (DL.Op V)))
    (hl : (Book.init : Book (DL.Op V)).LegalAll2 (fun l o => dlCow l o ∧ Short o) (fun l o => dlInp st l o ∧ Short o) ops)
    {k : Nat} (sc : Fin k → Script (DL.Op V) LabelQ (Bytes × V))
    (hs : ∀ t, (sc t).Legal (fun l o => dlCow l o ∧ Short o) (fun l o => dlInp st l o ∧ Short o) TextRight (fun _ => True) (List.range (Book.init.exec ops).next) (Book.init.exec ops) ops.length) :
    ∃ f0, ∀ f, f0 ≤ f → ∃ s, OStore.init.exec (dlImpl st f) ops = .ok s ∧
      IterateAll LabelRight (DLShows f) TextRight (Book.init.exec ops) sc
        (fun t => (sc t).main (dlImpl st f) (labelRead f) (dlLoop f f V) ([], s.roots) .ret) s.heap := by
  have e : ∀ f ops s, OStore.exec (restrict (dlImpl (V := V) st f) Short) s ops = OStore.exec (dlImpl st f) s ops := by
    intro f ops
    induction ops with
    | nil => exact fun _ => rfl
    | cons op ops ih =>
      intro s
      have e1 : s.step (restrict (dlImpl (V := V) st f) Short) op = s.step (dlImpl st f) op := by cases op <;> rfl
      simp only [OStore.exec, e1, ih]
  have e2 : ∀ f (sc : Script (DL.Op V) LabelQ (Bytes × V)) x (k : List (Option (Reply V (Bytes × V))) × List Ptr → Main (LD V) (Cell (LD V)) (Bytes × V) (List (Option (Reply V (Bytes × V))) × List Ptr)),
      sc.main (restrict (dlImpl (V := V) st f) Short) (labelRead f) (dlLoop f f V) x k = sc.main (dlImpl st f) (labelRead f) (dlLoop f f V) x k := by
    intro f sc
    induction sc with
    | done => exact fun _ _ => rfl
    | call op t ih =>
      intro x k
      have : stepP (restrict (dlImpl (V := V) st f) Short) x.2 op = stepP (dlImpl st f) x.2 op := by cases op <;> rfl
      simp only [Script.main, ih, this]
    | read i q t ih => intro x k; simp only [Script.main, ih]
    | each i body t ihb iht => intro x k; simp only [Script.main, ihb, iht]
  have main := obj_crew_fuel (I := fun f => restrict (dlImpl (V := V) st f) Short)
    (L' := fun l es => TextRight l es ∧ (DL.run (DLHeap.start0 st) l).bind DL.Enumerate = some es)
    (fun _ => rfl) (fun _ => rfl) ops hl labelRead LabelRight DLShows (Lp := fun f => dlLoop f f V) (fun _ _ h => h.1)
    (fun l es es' h h' => by have := h.2.symm.trans h'.2; cases this; rfl)
    (fun n => ⟨2 * n + 3, fun f hf => ⟨restrict_lawful (dlImpl_lawful (V := V) st hf), fun q h r l F hn ho => labelRead_ok hf q h r l F hn ho.1,
      fun h r l F hn ho => dlShows_of_obj (by omega) ho.1, dlLoop_lawful st hf (by omega)⟩⟩) sc hs
  unfold IterateAll
  simp only [e, e2] at main
  exact main

end Dltree

/-! ## Concrete cases -/

/-- The answers of the reads of all threads after a history and so many rounds of turns. -/
def crewAnswers {D O R K A B E : Type} (I : OImpl D O R) (Rd : K → R → Prog D A) (Lp : Loop D R B E) (ops : List (SOp O)) {k : Nat} (sc : Fin k → Script O K E) (eager : Bool)
    (sched : List (Fin k)) : List (Option (List (Option A))) :=
  match OStore.init.exec I ops with
  | .ok s =>
    let c := crewTurns id eager sched (Crew.start s.heap fun t => (sc t).main I Rd Lp ([], s.roots) .ret)
    (List.finRange k).map fun t => (c.sys t).answer.map Prod.fst
  | .error _ => []

/-- `n` rounds of turns. -/
def robin (k n : Nat) : List (Fin k) := (List.range n).flatMap fun _ => List.finRange k

section
open Verif.Num Verif.NumHeap

/-- Start a tree (as tree 3) and insert in place into it every entry of tree 2. -/
def numCopy : Script (NumOp 32 Nat) (NumQ 32) (ND 32 Nat) :=
  .call .fresh (.each 2 (fun e => .call (.inp 3 (.insert e.key e.bits (e.value + 10))) .done) (.read 3 .list .done))

/-- One goroutine copies tree 2, the other derives trees from it while it loops over it. -/
def numCrew : Fin 2 → Script (NumOp 32 Nat) (NumQ 32) (ND 32 Nat)
  | 0 => numCopy
  | 1 => numDerive

example : ∀ t, (numCrew t).Legal (numImpl 34 32 Nat).toO.cowOk (numImpl 34 32 Nat).toO.inpOk (fun l es => NumRight .list l (.list es)) (fun _ => True)
    (List.range (Book.init.exec numTwo).next) (Book.init.exec numTwo) numTwo.length := by
  intro t
  match t with
  | 0 =>
    refine ⟨trivial, trivial, trivial, fun es _ => ⟨?_, fun l _ => trivial⟩⟩
    -- tree 3 has an origin of its own in every round
    suffices H : ∀ (es : List (ND 32 Nat)) (b : Book (NumOp 32 Nat)) m, b.vs.map Prod.fst = [0, 0, 0, 1] →
        RoundsLegal (fun e => (Script.call (.inp 3 (.insert e.key e.bits (e.value + 10))) (.done : Script (NumOp 32 Nat) (NumQ 32) (ND 32 Nat))).Unrolls fun l es => NumRight .list l (.list es))
          (fun e => (Script.call (.inp 3 (.insert e.key e.bits (e.value + 10))) (.done : Script (NumOp 32 Nat) (NumQ 32) (ND 32 Nat))).Legal (numImpl 34 32 Nat).toO.cowOk
            (numImpl 34 32 Nat).toO.inpOk (fun l es => NumRight .list l (.list es)) (fun _ => True) [0, 0]) es b m from H es _ _ rfl
    intro es
    induction es with
    | nil => exact fun _ _ _ => trivial
    | cons e es ih =>
      intro b m hb
      obtain ⟨nx, vs⟩ := b
      match vs, hb with
      | [(_, l0), (_, l1), (_, l2), (_, l3)], hb =>
        simp only [List.map_cons, List.map_nil, List.cons.injEq, and_true] at hb
        obtain ⟨rfl, rfl, rfl, rfl⟩ := hb
        refine ⟨⟨trivial, ?_, ?_, trivial⟩, ?_⟩
        · intro v hv
          cases hv
          refine ⟨trivial, fun j u hj hu => ?_⟩
          match j, hu with
          | 0, hu => cases hu; exact (by decide : (0 : Nat) ≠ 1)
          | 1, hu => cases hu; exact (by decide : (0 : Nat) ≠ 1)
          | 2, hu => cases hu; exact (by decide : (0 : Nat) ≠ 1)
          | 3, _ => exact absurd rfl hj
        · intro v hv
          cases hv
          exact (by decide : (1 : Nat) ∉ [0, 0])
        · rintro l ⟨l', rfl, rfl⟩
          exact ih _ _ rfl
  | 1 =>
    exact Script.Derives.legal (good := fun _ => True) (fun _ _ _ => trivial) (fun _ => trivial) numDerive
      ⟨fun _ => ⟨trivial, fun _ => trivial, trivial, trivial⟩, trivial⟩ _ _ _

/-- The values in a reply. -/
def numValues : Option (Reply Nat (ND 32 Nat)) → List (Option Nat)
  | some (.val x) => [x]
  | some (.list l) => l.map fun n => some n.value
  | none => []

/-- Both come out as alone. -/
example : ∀ eager : Bool, (crewAnswers (numImpl 34 32 Nat).toO (numRead 34) (numLoop 34 (2 ^ 33) 32 Nat) numTwo numCrew eager (robin 2 40)).map
    (fun x => x.map fun l => l.map numValues) = [some [[some 11, some 12]], some [[], [some 1], [some 1], [some 1, some 2]]] := by decide +kernel

/-- One goroutine loops over tree 0, the other writes to it in place. -/
def numClash : Fin 2 → Script (NumOp 32 Nat) (NumQ 32) (ND 32 Nat)
  | 0 => .each 0 (fun e => .read 0 (.exact e.key e.bits) .done) .done
  | 1 => .call (.inp 0 (.insert 0x0A000000#32 8 2)) .done

/-- C65, why the restriction: if one goroutine inserts in place into a tree that another loops over, what the other sees depends on the
schedule. -/
theorem C65_inplace_race : ∃ s, OStore.init.exec (numImpl 34 32 Nat).toO [.fresh, .inp 0 (.insert 0x0A000000#32 8 1)] = .ok s ∧
    ¬ ∃ v, ∀ l c, CrewRuns id (Crew.start s.heap fun t => (numClash t).main (numImpl 34 32 Nat).toO (numRead 34) (numLoop 34 (2 ^ 33) 32 Nat) ([], s.roots) .ret) l c →
      ∀ x, (c.sys 0).main = .ret x → x.1 = v := by
  refine ⟨_, rfl, crew_two_answers (t := (0 : Fin 2)) (ts := List.replicate 60 0 ++ List.replicate 60 1) (us := List.replicate 60 1 ++ List.replicate 60 0)
    (fun x : List (Option (Reply Nat (ND 32 Nat))) × List Ptr => x.1) (x := [some (.val (some 1))]) (y := [some (.val (some 2))]) ?_ ?_ (by decide)⟩
  · decide +kernel
  · decide +kernel

end

section
open Verif.RB Verif.RBHeap

example : ∀ _ : Fin 2, kvDerive.Legal (fun _ _ => True) kvInp (fun l es => KVRight compareBytes .list l (.list es)) (fun _ => True)
    (List.range (Book.init.exec kvShared).next) (Book.init.exec kvShared) kvShared.length :=
  fun _ => Script.Derives.legal (good := fun _ => True) (fun _ _ _ => trivial) (fun _ => trivial) kvDerive ⟨fun _ => ⟨trivial, trivial, trivial⟩, trivial⟩ _ _ _

example : ∀ eager, crewAnswers (rbImpl compareBytes 20).toO (kvRead compareBytes 20) (strLoop 20 20 Nat) kvShared (fun _ : Fin 2 => kvDerive) eager (robin 2 100) =
    List.replicate 2 (some [some (.list [([1], 1), ([1, 7], 11), ([2], 2)]), some (.list [([1], 1), ([2], 2), ([2, 7], 12)]), some (.list [([1], 1), ([2], 2)])]) := by decide +kernel

end

section
open Verif.IP Verif.IPHeap

example : ∀ eager, crewAnswers (ipImpl true 66) (netRead 66) (ipLoop 66 (2 ^ 132) Nat) netTwo (fun _ : Fin 2 => netDerive) eager (robin 2 50) =
    List.replicate 2 (some [some (.val none), some (.val (some (.user 2))), some (.val none), some (.val (some (.user 1)))]) := by decide +kernel

example : ∀ eager, crewAnswers (UIPHeap.uipImpl true 66) (unetRead 66) (uipLoop 66 (2 ^ 132) Nat) netTwo (fun _ : Fin 2 => netDerive) eager (robin 2 50) =
    List.replicate 2 (some [some (.val none), some (.val (some 2)), some (.val none), some (.val (some 1))]) := by decide +kernel

end

section
open Verif.Domain Verif.DomTree Verif.DomHeap

example : ∀ eager, crewAnswers (domImpl true 128) (domRead 128) (domLoop 128 128 Nat) domTwo (fun _ : Fin 2 => domDerive) eager (robin 2 140) =
    List.replicate 2 (some [some (.list [(txt "b.com", 1), (txt "a.b.com", 2), (txt "org", 1)]), some (.list [(txt "b.com", 1), (txt "a.b.com", 2), (txt "org", 2)]),
      some (.list [(txt "b.com", 1), (txt "a.b.com", 2)])]) := by decide +kernel

end

section
open Verif.DL Verif.DLHeap

example : ∀ eager, crewAnswers (dlImpl true 20) (labelRead 20) (dlRawLoop 20 20 Nat) labelTwo (fun _ : Fin 2 => labelDerive) eager (robin 2 100) =
    List.replicate 2 (some [some (.list [([65, 66], 2)]), some (.list [([65], 1)]), some (.list [([65], 1), ([65, 66], 2)])]) := by decide +kernel

end

end Verif.Props
