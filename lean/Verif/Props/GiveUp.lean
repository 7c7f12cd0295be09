import Verif.Heap.GiveUp
import Verif.RBHeap.Try
import Verif.Props.Goroutines

/-!
# Property theorems for calls that are given up (C83)

A call may end in the middle: a comparison function given to strtree panics and the caller recovers, or the goroutine ends (`runtime.Goexit`).  A history has such calls
anywhere, cut off after any number of memory accesses (`XOp`).  `StillShows` says that every tree the client still holds shows its own chain of finished calls: a
copy-on-write call given up leaves no trace, an in-place call given up loses only the tree it was made on.
-/

namespace Verif.Props
open Verif Verif.Heap Prog

/-- Every tree held after the history shows the finished calls that made it. -/
def StillShows {D O R : Type} (I : OImpl D O R) (xs : List (XOp O)) (Shows : Heap D → R → List O → Prop) : Prop :=
  ∃ s, OStore.init.execX I xs = .ok s ∧ s.roots.length = (Book.init.exec (asCalls xs)).vs.length ∧
    ∀ (i : Nat) r v, s.roots[i]? = some r → (Book.init.exec (asCalls xs)).vs[i]? = some v → Shows s.heap r v.2

section Numtree
open Verif.Num Verif.NumHeap
variable {w : Nat} {V : Type} [LawfulKeySize w] [Inhabited V]

/-- C83 (numtree). -/
theorem C83_numtree {f : Nat} (hf : w + 2 ≤ f) (xs : List (XOp (NumOp w V))) 
    (hl : (Book.init : Book (NumOp w V)).LegalAllX (fun _ _ => True) (fun _ => (numImpl f w V).inpOk) xs) :
    StillShows (numImpl f w V).toO xs (fun h r l => Observes f h r (lastWrite (l.map NumOp.abs))) := by
  obtain ⟨s, h1, h2, h3⟩ := obj_historyX (n := xs.length) (Impl.toO_lawful (numImpl_lawful (V := V) hf _)) xs (Nat.le_refl _) hl
  refine ⟨s, h1, h2, fun i r v hr hv => ?_⟩
  obtain ⟨_, F, A, rfl, a1, a2, _, _⟩ := h3 i r v hr hv
  exact observes_of_rep hf a1 a2

end Numtree

section Strtree
open Verif.RB Verif.RBHeap
variable {V : Type} [Inhabited V]

/-- C83 (strtree). -/
theorem C83_strtree {cmp : Bytes → Bytes → Int} (hc : LawfulCmp cmp) {f : Nat} (xs : List (XOp (KOp Bytes V))) (hf : 2 * xs.length + 3 ≤ f)
    (hl : (Book.init : Book (KOp Bytes V)).LegalAllX (fun _ _ => True) (fun _ => (rbImpl (V := V) cmp f).inpOk) xs) :
    StillShows (rbImpl cmp f).toO xs (KVObserves cmp f) := by
  obtain ⟨s, h1, h2, h3⟩ := obj_historyX (n := xs.length) (Impl.toO_lawful (rbImpl_lawful (V := V) hc.refl hf)) xs (Nat.le_refl _) hl
  refine ⟨s, h1, h2, fun i r v hr hv => ?_⟩
  obtain ⟨hn, F, A, rfl, a1, a2, _, _⟩ := h3 i r v hr hv
  exact kvObserves_of_rep hc (by omega) hn a1 a2

end Strtree

section Iptree
open Verif.IP Verif.IPHeap
variable {V : Type} [Inhabited V]

/-- C83 (iptree). -/
theorem C83_iptree (st : Bool) {f : Nat} (hf : 66 ≤ f) (xs : List (XOp (Op V))) 
    (hl : (Book.init : Book (Op V)).LegalAllX (fun _ _ => True) (ipImpl st f).inpOk xs) :
    StillShows (ipImpl st f) xs (NetObserves f) := by
  obtain ⟨s, h1, h2, h3⟩ := obj_historyX (n := xs.length) (ipImpl_lawful (V := V) st hf _) xs (Nat.le_refl _) hl
  refine ⟨s, h1, h2, fun i r v hr hv => ?_⟩
  obtain ⟨_, F, t, ht, hT⟩ := h3 i r v hr hv
  exact netObserves_of_rep hf hT ht

end Iptree

section UIptree
open Verif.IP (Op OpNet)
open Verif.UIPHeap (UD uipImpl uipImpl_lawful)
variable {V : Type} [Inhabited V]

/-- C83 (generated IP trees). -/
theorem C83_uiptree (st : Bool) {f : Nat} (hf : 66 ≤ f) (xs : List (XOp (Op V))) 
    (hl : (Book.init : Book (Op V)).LegalAllX (fun _ _ => True) (uipImpl st f).inpOk xs) :
    StillShows (uipImpl st f) xs (UShows f) := by
  obtain ⟨s, h1, h2, h3⟩ := obj_historyX (n := xs.length) (uipImpl_lawful (V := V) st hf _) xs (Nat.le_refl _) hl
  refine ⟨s, h1, h2, fun i r v hr hv => ?_⟩
  obtain ⟨_, F, t, hT, hL, _⟩ := h3 i r v hr hv
  exact uShows_of_rep hf hT hL

end UIptree

section Domaintree
open Verif.Domain Verif.DomTree Verif.DomHeap
variable {V : Type}

/-- C83 (domaintree). -/
theorem C83_domaintree (st : Bool) {f : Nat} (hk : 128 ≤ f) (xs : List (XOp (Op V))) (hf : 2 * xs.length + 3 ≤ f)
    (hl : (Book.init : Book (Op V)).LegalAllX cowOk (inpOk st) xs) :
    StillShows (domImpl st f) xs (DomObserves f) := by
  obtain ⟨s, h1, h2, h3⟩ := obj_historyX (n := xs.length) (domImpl_lawful (V := V) st hf) xs (Nat.le_refl _) hl
  refine ⟨s, h1, h2, fun i r v hr hv => ?_⟩
  obtain ⟨_, F, ho⟩ := h3 i r v hr hv
  exact domObserves_of_rep (by omega) hk ho

end Domaintree

section Dltree
open Verif.DL Verif.DLHeap
variable {V : Type} [Inhabited V]

/-- C83 (dltree). -/
theorem C83_dltree (st : Bool) {f : Nat} (xs : List (XOp (DL.Op V))) (hf : 2 * xs.length + 3 ≤ f)
    (hl : (Book.init : Book (DL.Op V)).LegalAllX dlCow (dlInp st) xs) :
    StillShows (dlImpl st f) xs (DLShows f) := by
  obtain ⟨s, h1, h2, h3⟩ := obj_historyX (n := xs.length) (dlImpl_lawful (V := V) st hf) xs (Nat.le_refl _) hl
  refine ⟨s, h1, h2, fun i r v hr hv => ?_⟩
  obtain ⟨_, F, ho⟩ := h3 i r v hr hv
  exact dlShows_of_obj (by omega) ho

end Dltree

/-! ## Cases -/

/-- What the trees held after a history answer. -/
def heldAnswers {D O R A : Type} (I : OImpl D O R) (rd : R → Prog D A) (xs : List (XOp O)) : Option (List (Option A)) :=
  match OStore.init.execX I xs with
  | .ok s => some (s.roots.map fun r => answer (rd r) s.heap)
  | .error _ => none

section
open Verif.RB Verif.RBHeap

/-- Three keys; a fourth and a deletion given up after some accesses; an in-place insertion into another tree given up. -/
def kvGivenUp : List (XOp (KOp Bytes Nat)) :=
  [.call .fresh, .call (.cow 0 (.insert [1] 1)), .call (.cow 1 (.insert [2] 2)), .call (.cow 2 (.insert [3] 3)), .giveUp 3 (.insert [4] 4) 9, .giveUp 3 (.delete [2]) 14,
    .call .fresh, .call (.inp 4 (.insert [7] 7)), .giveUpInp 4 (.insert [8] 8) 4]

example : heldAnswers (rbImpl compareBytes 30).toO (enumerateP 30) kvGivenUp =
    some [some [], some [([1], 1)], some [([1], 1), ([2], 2)], some [([1], 1), ([2], 2), ([3], 3)]] := by decide +kernel

example : StillShows (rbImpl compareBytes 30).toO kvGivenUp (KVObserves compareBytes 30) := by
  refine C83_strtree compareBytes_lawful _ (by decide) ⟨trivial, fun _ _ => trivial, fun _ _ => trivial, fun _ _ => trivial, fun _ _ => trivial, fun _ _ => trivial, trivial, ?_, ?_, trivial⟩
  all_goals
    rintro v hv
    refine ⟨trivial, fun j u hj hu => ?_⟩
    have : j < 5 := by
      rcases Nat.lt_or_ge j 5 with q | q
      · exact q
      · rw [List.getElem?_eq_none (by simpa [kvGivenUp, XOp.asCalls, Book.exec, Book.step, Book.init] using q)] at hu; cases hu
    revert hv hu
    match j, this, hj with
    | 0, _, _ | 1, _, _ | 2, _, _ | 3, _, _ => rintro hv hu; cases hv; cases hu; decide
    | 4, _, hj => exact absurd rfl hj

end

section
open Verif.Num Verif.NumHeap

def numGivenUp : List (XOp (NumOp 32 Nat)) :=
  [.call .fresh, .call (.cow 0 (.insert 0x0A000000#32 8 1)), .giveUp 1 (.insert 0x0A010000#32 16 2) 3, .giveUp 1 (.delete 0x0A000000#32 8) 2]

example : heldAnswers (numImpl 34 32 Nat).toO (fun r => numRead 34 (.longest 0x0A010203#32 32) r) numGivenUp = some [some (.val none), some (.val (some 1))] := by decide +kernel

example : (Book.init : Book (NumOp 32 Nat)).LegalAllX (fun _ _ => True) (fun _ => (numImpl 34 32 Nat).inpOk) numGivenUp :=
  ⟨trivial, fun _ _ => trivial, fun _ _ => trivial, fun _ _ => trivial, trivial⟩

end

section
open Verif.IP Verif.IPHeap

def netGivenUp : List (XOp (Op Nat)) :=
  [.call .fresh, .call (.cow 0 (.insertNet (some (net6 0x20 0x01 0 0 64)) 1)), .giveUp 1 (.insertNet (some (net6 0x20 0x01 0 1 80)) 2) 6,
    .giveUp 1 (.deleteByNet (some (net6 0x20 0x01 0 0 64))) 3]

example : heldAnswers (ipImpl true 66) (fun r => netRead 66 (.get (some (net6 0x20 0x01 0 1 80))) r) netGivenUp = some [some (.val none), some (.val (some (.user 1)))] := by decide +kernel

example : heldAnswers (UIPHeap.uipImpl true 66) (fun r => unetRead 66 (.get (some (net6 0x20 0x01 0 1 80))) r) netGivenUp = some [some (.val none), some (.val (some 1))] := by decide +kernel

example : (Book.init : Book (Op Nat)).LegalAllX (fun _ _ => True) (ipImpl true 66).inpOk netGivenUp := ⟨trivial, fun _ _ => trivial, fun _ _ => trivial, fun _ _ => trivial, trivial⟩
example : (Book.init : Book (Op Nat)).LegalAllX (fun _ _ => True) (UIPHeap.uipImpl true 66).inpOk netGivenUp := ⟨trivial, fun _ _ => trivial, fun _ _ => trivial, fun _ _ => trivial, trivial⟩

end

section
open Verif.Domain Verif.DomTree Verif.DomHeap

def domGivenUp : List (XOp (Op Nat)) := [.call .fresh, .call (.cow 0 (.insert (nm "b.com") 1)), .giveUp 1 (.insert (nm "a.b.com") 2) 11, .giveUp 1 (.insert (nm "b.com") 3) 7]

example : heldAnswers (domImpl true 128) (fun r => domRead 128 .list r) domGivenUp = some [some (.list []), some (.list [(txt "b.com", 1)])] := by decide +kernel

example : (Book.init : Book (Op Nat)).LegalAllX cowOk (inpOk true) domGivenUp :=
  ⟨trivial, fun _ _ => ⟨⟨txt "b.com", by decide +kernel⟩, trivial⟩, fun _ _ => ⟨⟨txt "a.b.com", by decide +kernel⟩, trivial⟩, fun _ _ => ⟨⟨txt "b.com", by decide +kernel⟩, trivial⟩, trivial⟩

end

section
open Verif.DL Verif.DLHeap

def labelGivenUp : List (XOp (DL.Op Nat)) := [.call .fresh, .call (.cow 0 (.rawInsert [65] 1)), .giveUp 1 (.rawInsert [66] 2) 5, .giveUp 1 (.rawInsert [65] 3) 4]

example : heldAnswers (dlImpl true 20) (fun r => labelRead 20 .list r) labelGivenUp = some [some (.list []), some (.list [([65], 1)])] := by decide +kernel

example : (Book.init : Book (DL.Op Nat)).LegalAllX dlCow (dlInp true) labelGivenUp :=
  ⟨trivial, fun _ _ => ⟨_, .rawInsert⟩, fun _ _ => ⟨_, .rawInsert⟩, fun _ _ => ⟨_, .rawInsert⟩, trivial⟩

end

section Panic
open Verif.RB Verif.RBHeap
variable {V : Type} [Inhabited V]

/-- C83 (strtree, comparison function that panics).  Each call of the client has a comparison function that gives the results of `cmp` or panics (`TryClient.Legal`), and
what it does next may depend on whether the call panicked.  The client's run does not end otherwise, and every tree it holds shows the calls that made it, where calls that
panicked count for nothing (in-place ones lose their tree).  Only a comparison function that may panic makes a call unfinished (`Record`). -/
theorem C83_strtree_panic {cmp : Bytes → Bytes → Int} (hc : LawfulCmp cmp) {f : Nat} (c : TryClient Bytes V) (hf : 2 * c.len + 3 ≤ f) (hl : c.Legal cmp Book.init) :
    ∃ s l, tryExec f OStore.init c = .ok (s, l) ∧ Record c l ∧ s.roots.length = (Book.init.exec l).vs.length ∧
      ∀ (i : Nat) r v, s.roots[i]? = some r → (Book.init.exec l).vs[i]? = some v → KVObserves cmp f s.heap r v.2 := by
  obtain ⟨s, l, e, hR, T, _, hk, h1, h2, h3, h4⟩ := tryExec_inv hc hf c (m := 0) (by omega) (oinv_init _) hl
  refine ⟨s, l, e, hR, by simp [h1, h2], fun i r v hr hv => ?_⟩
  rw [h1, List.getElem?_map] at hr
  rw [h2, List.getElem?_map] at hv
  cases hT : T[i]? with
  | none => simp [hT] at hr
  | some t =>
    simp only [hT, Option.map_some, Option.some.injEq] at hr hv
    subst hr hv
    obtain ⟨⟨A, hA, a1, a2, _, _⟩, _, a5⟩ := h3 t (List.mem_of_getElem? hT)
    rw [hA]
    exact kvObserves_of_rep hc (by omega) (by omega) a1 a2

/-- A comparison function that panics when `k` is the stored key it is asked about. -/
def panicAt (k : Bytes) : Bytes → Bytes → Option Int := fun a b => if a = k then none else some (compareBytes a b)

theorem panicAt_part (k : Bytes) : PartOf (panicAt k) compareBytes := by
  intro a b r h
  simp only [panicAt] at h
  split at h
  · cases h
  · cases h; rfl

/-- A client that inserts 1, tries to insert 2 into the new tree with a comparison function that panics, and by the outcome inserts 3 or 4 there. -/
def tryTwo : TryClient Bytes Nat :=
  .call .fresh (panicAt [1]) fun _ => .call (.cow 0 (.insert [1] 1)) (panicAt [1]) fun _ => .call (.cow 1 (.insert [2] 2)) (panicAt [1]) fun fin =>
    .call (.cow 1 (.insert (if fin then [3] else [4]) 3)) (panicAt [9]) fun _ => .done

/-- What the client's trees list in the end. -/
def tried (c : TryClient Bytes Nat) : Option (List (Option (List (Bytes × Nat)))) := match tryExec 30 OStore.init c with
  | .ok (s, _) => some (s.roots.map fun r => answer (enumerateP 30 r) s.heap)
  | .error _ => none

example : tried tryTwo = some [some [], some [([1], 1)], some [([1], 1), ([4], 3)]] := by decide +kernel

example : tryTwo.Legal compareBytes Book.init :=
  ⟨panicAt_part _, trivial, ⟨panicAt_part _, fun _ _ => trivial, ⟨panicAt_part _, fun _ _ => trivial, ⟨panicAt_part _, fun _ _ => trivial, trivial, fun _ _ => trivial⟩,
      fun _ _ => ⟨panicAt_part _, fun _ _ => trivial, trivial, fun _ _ => trivial⟩⟩,
    fun _ _ => ⟨panicAt_part _, fun _ _ => trivial, ⟨panicAt_part _, fun _ _ => trivial, trivial, fun _ _ => trivial⟩,
      fun _ _ => ⟨panicAt_part _, fun _ _ => trivial, trivial, fun _ _ => trivial⟩⟩⟩, fun h => h.elim⟩

/-- A tree of seven keys, on which one `InplaceInsert` is tried. -/
def sevenThen (cm : Bytes → Bytes → Option Int) : Option (Bool × List Bytes) :=
  match OStore.init.exec (rbImpl compareBytes 30).toO (.fresh :: (List.range 7).map fun i => SOp.inp 0 (.insert [UInt8.ofNat (i + 1)] i)) with
  | .error _ => none
  | .ok s => match s.roots[0]? with
    | none => none
    | some r =>
      let x := (inplaceInsertX cm 30 r [8] 7).runH s.heap
      match answer (enumerateP 30 r) x.2 with
      | none => none
      | some l => some (match x.1 with | .error .panic => true | _ => false, l.map (·.1))

/-- Why the tree is to be forgotten after an in-place call that panicked: strtree/strtree.go:48-51 `InplaceInsert` sets `t.root` only when the call is finished, while
nodes have been turned by then.  Of the seven keys 1, ..., 7 the tree shows three after the comparison function panicked during the insertion of 8. -/
theorem C83_inplace_loses : sevenThen (panicAt [7]) = some (true, [[1], [2], [3]]) := by decide +kernel

/-- A panic before anything was turned loses nothing. -/
example : sevenThen (panicAt [2]) = some (true, [[1], [2], [3], [4], [5], [6], [7]]) := by decide +kernel

end Panic

end Verif.Props
