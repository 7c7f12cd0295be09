import Verif.Heap.Job
import Verif.Props.Isolated

/-!
# Property theorems for goroutines on trees of different origins (C103)

After a history of which nothing is asked (in-place calls on trees that share nodes, malformed arguments, recovered panics, trees damaged until a search runs round a cycle), goroutines work
at the same time without any synchronisation, in one memory, one memory access at a time in any order.  Goroutine `t` works on the trees of origin `org t` and on trees it starts itself;
what it does next may depend on the answers it has got and on which calls panicked (`Job`).  No two goroutines work on trees of the same origin.  Then each of them sees what it sees when
the others do nothing, and no two of them ever are at the same memory cell, so there is no data race.
-/

namespace Verif.Props
open Verif Verif.Heap
variable {V D O : Type}

/-- What any goroutines started on the trees of a history see. -/
def Undisturbed {Q A : Type} (I : OImpl D O Ptr) (ask : Q → Ptr → Prog D A) (ops : List (SOp O × Bool)) (s : OStore D Ptr) : Prop :=
  ∀ {T : Type} [DecidableEq T] (org : T → Nat), (∀ t u, org t = org u → t = u) → ∀ (job : T → Job O Q A) (sched : List T) (t : T),
    let start := teamOf I ask ops s org job
    let now := start.exec sched
    -- one that has come to its end has seen all that it sees alone; one that can do nothing any more (a search runs round a cycle) cannot alone either
    (∀ x, now.prog t = .ret x → (start.prog t).comes s.heap = .ok x) ∧ (∀ e, now.prog t = .stop e → (start.prog t).comes s.heap = .error e) ∧
    -- it needs no more turns than alone
    ((start.prog t).left s.heap ≤ sched.count t → (∃ x, now.prog t = .ret x) ∨ ∃ e, now.prog t = .stop e) ∧
    -- no other goroutine is at the cell it is at
    ∀ u, u ≠ t → ∀ a, (now.prog t).reaches = some a → (now.prog u).reaches ≠ some a

/-- Answers: a value or that there is none, all that is in the tree, what a deletion reports. -/
inductive Ans (X V : Type) where
  | val (x : Option V)
  | all (l : List X)
  | flag (b : Bool)
deriving DecidableEq

theorem sim_ans {α β : Type} {ρ : Addr → Addr → Prop} {C : Cell D → Cell D → Prop} {P : α → α → Prop} {p q : Prog D α} {f : α → β} (h : p.Sim ρ C P q) (hf : ∀ x y, P x y → f x = f y) :
    (do let x ← p; pure (f x)).Sim ρ C Eq (do let x ← q; pure (f x)) := sim_bind h fun x y hxy => sim_pure (hf x y hxy)

section strtree
open Verif.RB Verif.RBHeap

/-- What can be asked of a tree with string keys: Get, Enumerate, and what Delete reports (without keeping the tree it gives). -/
inductive AskStr where
  | get (k : Bytes)
  | enumerate
  | delete (k : Bytes)

def strAsk [Inhabited V] (cmp : Bytes → Bytes → Int) (g : Nat) : AskStr → Ptr → Prog (RD Bytes V) (Ans (Bytes × V) V)
  | .get k, r => do let x ← getP cmp g r k; pure (.val x)
  | .enumerate, r => do let x ← enumerateP g r; pure (.all x)
  | .delete k, r => do let x ← delP cmp g r k; pure (.flag x.2)

theorem OptR.eq {x y : Option V} (hx : OptR Eq x y) : x = y := by cases x <;> cases y <;> first | rfl | exact hx.elim | exact congrArg some hx

/-- C103 (strtree, any comparison). -/
theorem C103_strtree [Inhabited V] (cmp : Bytes → Bytes → Int) (f g : Nat) (ops : List (SOp (KOp Bytes V) × Bool)) {s : OStore (RD Bytes V) Ptr}
    (he : OStore.init.execR (rbImpl cmp f).toO ops = some s) : Undisturbed (rbImpl cmp f).toO (strAsk cmp g) ops s := by
  intro T _ org horg job sched t
  refine team_alone (rbBlind cmp f) (fun ρ ho q r r' hr => ?_) ops he org horg job sched t
  cases q with
  | get k => exact sim_ans (P := OptR Eq) (f := Ans.val) (B_getP cmp g hr k) fun x y h => congrArg _ (OptR.eq h)
  | enumerate => exact sim_ans (P := ListR Eq) (f := Ans.all) (B_enumerateP g hr) fun x y h => congrArg _ h.eq
  | delete k => exact sim_ans (P := fun (x y : Ptr × Bool) => PR ρ x.1 y.1 ∧ x.2 = y.2) (f := fun x => Ans.flag x.2) (B_delP rfl ho cmp g hr k) fun x y h => congrArg _ h.2

end strtree

section dltree
open Verif.RBHeap Verif.DLHeap

/-- What can be asked of a dltree: the calls with domain labels in text and in wire form. -/
inductive AskDl where
  | get (k : Bytes)
  | rawGet (k : Bytes)
  | enumerate
  | rawEnumerate
  | delete (k : Bytes)
  | rawDelete (k : Bytes)

def dlAsk [Inhabited V] (g : Nat) : AskDl → Ptr → Prog (LD V) (Ans (Bytes × V) V)
  | .get k, r => do let x ← GetP lm g r k; pure (.val x)
  | .rawGet k, r => do let x ← RawGetP lm g r k; pure (.val x)
  | .enumerate, r => do let x ← EnumerateP lm g r; pure (.all x)
  | .rawEnumerate, r => do let x ← RawEnumerateP lm g r; pure (.all x)
  | .delete k, r => do let x ← DeleteP lm g r k; pure (.flag x.2)
  | .rawDelete k, r => do let x ← RawDeleteP lm g r k; pure (.flag x.2)

/-- C103 (dltree). -/
theorem C103_dltree [Inhabited V] (st : Bool) (f g : Nat) (ops : List (SOp (DL.Op V) × Bool)) {s : OStore (LD V) Ptr} (he : OStore.init.execR (dlImpl st f) ops = some s) :
    Undisturbed (dlImpl st f) (dlAsk g) ops s := by
  intro T _ org horg job sched t
  refine team_alone (dlBlind st f) (fun ρ ho q r r' hr => ?_) ops he org horg job sched t
  cases q with
  | get k => exact sim_ans (P := OptR Eq) (f := Ans.val) (B_GetP (lrel ρ) g hr k) fun x y h => congrArg _ (OptR.eq h)
  | rawGet k => exact sim_ans (P := OptR Eq) (f := Ans.val) (B_RawGetP (lrel ρ) g hr k) fun x y h => congrArg _ (OptR.eq h)
  | enumerate => exact sim_ans (P := ListR Eq) (f := Ans.all) (B_EnumerateP (lrel ρ) g hr) fun x y h => congrArg _ h.eq
  | rawEnumerate => exact sim_ans (P := ListR Eq) (f := Ans.all) (B_RawEnumerateP (lrel ρ) g hr) fun x y h => congrArg _ h.eq
  | delete k => exact sim_ans (P := fun (x y : Ptr × Bool) => PR ρ x.1 y.1 ∧ x.2 = y.2) (f := fun x => Ans.flag x.2) (B_DeleteP (lrel ρ) rfl ho g hr k) fun x y h => congrArg _ h.2
  | rawDelete k => exact sim_ans (P := fun (x y : Ptr × Bool) => PR ρ x.1 y.1 ∧ x.2 = y.2) (f := fun x => Ans.flag x.2) (B_RawDeleteP (lrel ρ) rfl ho g hr k) fun x y h => congrArg _ h.2

end dltree

section domaintree
open Verif.DomHeap Verif.Domain

/-- What can be asked of a domaintree. -/
inductive AskDom where
  | get (d : Name)
  | enumerate
  | delete (d : Name)
  | deleteSubdomains (d : Name)

def domAsk (g : Nat) : AskDom → Ptr → Prog (DD V) (Ans (Bytes × V) V)
  | .get d, r => do let x ← GetP g r d; pure (.val x)
  | .enumerate, r => do let x ← EnumerateTreeP g r; pure (.all x)
  | .delete d, r => do let x ← DeleteP g r d; pure (.flag x.2)
  | .deleteSubdomains d, r => do let x ← DeleteSubdomainsP g r d; pure (.flag x.2)

/-- C103 (domaintree). -/
theorem C103_domaintree (st : Bool) (f g : Nat) (ops : List (SOp (DomTree.Op V) × Bool)) {s : OStore (DD V) Ptr} (he : OStore.init.execR (domImpl st f) ops = some s) :
    Undisturbed (domImpl st f) (domAsk g) ops s := by
  intro T _ org horg job sched t
  refine team_alone (domBlind st f) (fun ρ ho q r r' hr => ?_) ops he org horg job sched t
  cases q with
  | get d => exact sim_ans (P := Eq) (f := Ans.val) (B_GetP g hr d) fun x y h => congrArg _ h
  | enumerate => exact sim_ans (P := Eq) (f := Ans.all) (B_EnumerateTreeP g hr) fun x y h => congrArg _ h
  | delete d => exact sim_ans (P := DelR ρ) (f := fun x => Ans.flag x.2) (B_DeleteP ho g hr d) fun x y h => congrArg _ h.2
  | deleteSubdomains d => exact sim_ans (P := DelR ρ) (f := fun x => Ans.flag x.2) (B_DeleteSubdomainsP ho g hr d) fun x y h => congrArg _ h.2

end domaintree

section numtree
open Verif.Num Verif.NumHeap
variable {w : Nat} [LawfulKeySize w] [Inhabited V]

/-- What can be asked of a numtree. -/
inductive AskNum (w : Nat) where
  | best (k : BitVec w) (b : Int)
  | exact (k : BitVec w) (b : Int)
  | enumerate
  | delete (k : BitVec w) (b : Int)

def numAsk (g : Nat) : AskNum w → Ptr → Prog (ND w V) (Ans (ND w V) V)
  | .best k b, r => do let x ← MatchP g r k b; pure (.val x)
  | .exact k b, r => do let x ← ExactMatchP g r k b; pure (.val x)
  | .enumerate, r => do let x ← EnumerateP g r; pure (.all x)
  | .delete k b, r => do let x ← DeleteP g r k b; pure (.flag x.2)

/-- C103 (numtree). -/
theorem C103_numtree (f g : Nat) (ops : List (SOp (NumOp w V) × Bool)) {s : OStore (ND w V) Ptr} (he : OStore.init.execR (numImpl f w V).toO ops = some s) :
    Undisturbed (numImpl f w V).toO (numAsk g) ops s := by
  intro T _ org horg job sched t
  refine team_alone (numBlind f w V) (fun ρ ho q r r' hr => ?_) ops he org horg job sched t
  cases q with
  | best k b => exact sim_ans (P := NOptR Eq) (f := Ans.val) (B_MatchP g hr k b) fun x y h => congrArg _ (opt_eq h)
  | exact k b => exact sim_ans (P := NOptR Eq) (f := Ans.val) (B_ExactMatchP g hr k b) fun x y h => congrArg _ (opt_eq h)
  | enumerate => exact sim_ans (P := NLR Eq) (f := Ans.all) (B_EnumerateP g hr) fun x y h => congrArg _ h.eq
  | delete k b => exact sim_ans (P := NDelR ρ) (f := fun x => Ans.flag x.2) (B_DeleteP g hr k b) fun x y h => congrArg _ h.2

end numtree

section iptrees
open Verif.IP Verif.NumHeap
variable [Inhabited V]

/-- What can be asked of an IP tree.  GetByIP and DeleteByIP are the calls with the network of the address. -/
inductive AskIp where
  | get (n : Option IPNet)
  | enumerate
  | delete (n : Option IPNet)

section
open Verif.IPHeap

def ipAsk (g : Nat) : AskIp → Ptr → Prog (IPD V) (Ans (IPNet × Option V) (Option V))
  | .get n, r => do let x ← GetByNetP g r n; pure (.val (x.map seen))
  | .enumerate, r => do let x ← EnumerateTreeP g r; pure (.all (x.map fun p => (p.1, seen p.2)))
  | .delete n, r => do let x ← DeleteByNetP g r n; pure (.flag x.2)

/-- C103 (iptree). -/
theorem C103_iptree (st : Bool) (f g : Nat) (ops : List (SOp (Op V) × Bool)) {s : OStore (IPD V) Ptr} (he : OStore.init.execR (ipImpl st f) ops = some s) :
    Undisturbed (ipImpl st f) (ipAsk g) ops s := by
  intro T _ org horg job sched t
  refine team_alone (ipBlind st f) (fun ρ ho q r r' hr => ?_) ops he org horg job sched t
  cases q with
  | get n =>
    refine sim_ans (P := NOptR (HVR ρ)) (f := fun x => Ans.val (x.map seen)) (B_GetByNetP g hr n) fun x y h => congrArg _ ?_
    cases x <;> cases y <;> first | rfl | exact h.elim | exact congrArg some (seen_eq h)
  | enumerate => exact sim_ans (P := ILR ρ) (f := fun x : List (IPNet × HV V) => Ans.all (x.map fun p => (p.1, seen p.2))) (B_EnumerateTreeP g hr) fun x y h => congrArg _ (seen_list h)
  | delete n => exact sim_ans (P := NDelR ρ) (f := fun x => Ans.flag x.2) (B_DeleteByNetP g hr n) fun x y h => congrArg _ h.2

end

section
open Verif.UIPHeap

def uipAsk (g : Nat) : AskIp → Ptr → Prog (UD V) (Ans (IPNet × V) V)
  | .get n, r => do let x ← GetByNetP g r n; pure (.val x)
  | .enumerate, r => do let x ← EnumerateTreeP g r; pure (.all x)
  | .delete n, r => do let x ← DeleteByNetP g r n; pure (.flag x.2)

/-- C103 (generated IP trees). -/
theorem C103_uiptree (st : Bool) (f g : Nat) (ops : List (SOp (Op V) × Bool)) {s : OStore (UD V) Ptr} (he : OStore.init.execR (uipImpl st f) ops = some s) :
    Undisturbed (uipImpl st f) (uipAsk g) ops s := by
  intro T _ org horg job sched t
  refine team_alone (uipBlind st f) (fun ρ ho q r r' hr => ?_) ops he org horg job sched t
  cases q with
  | get n => exact sim_ans (P := NOptR Eq) (f := Ans.val) (B_GetByNetP g hr n) fun x y h => congrArg _ (opt_eq h)
  | enumerate => exact sim_ans (P := Eq) (f := Ans.all) (B_EnumerateTreeP g hr) fun x y h => congrArg _ h
  | delete n => exact sim_ans (P := NDelR ρ) (f := fun x => Ans.flag x.2) (B_DeleteByNetP g hr n) fun x y h => congrArg _ h.2

end
end iptrees

/-! ## Concrete cases -/

open Verif.RB Verif.RBHeap

/-- What a goroutine that has come to its end has seen. -/
def ended {α : Type} : Prog D α → Option α
  | .ret x => some x
  | _ => none

/-- At the end of the schedule goroutine `false`, on the trees of origin 0, and goroutine `true`, on the trees of origin 1, have seen `l` and `r`; `none` is for one that has not come to its
end.  The same is what each sees alone. -/
def pairSees {Q A : Type} [DecidableEq A] (I : OImpl D O Ptr) (ask : Q → Ptr → Prog D A) (ops : List (SOp O × Bool)) (job : Bool → Job O Q A) (sched : List Bool) (l r : Option (List (Event A))) : Bool :=
  match OStore.init.execR I ops with
  | none => false
  | some s =>
    let start := teamOf I ask ops s (fun t : Bool => if t then 1 else 0) job
    let now := start.exec sched
    decide (ended (now.prog false) = l) && decide (ended (now.prog true) = r) && decide (answer (start.prog false) s.heap = l) && decide (answer (start.prog true) s.heap = r)

/-- strtree: the history of C100, which leaves the nodes of the trees of origin 0 in a cycle.  Goroutine `false` searches round the cycle, goroutine `true` works on its own trees. -/
def strJobs : Bool → Job (KOp Bytes Nat) AskStr (Ans (Bytes × Nat) Nat)
  | false => .inp 0 (.insert [7] 1) fun _ => .ask 0 (.get [2, 0]) fun _ => .done
  | true => .ask 0 (.get [3]) fun x => if x = some (.val (some 50)) then .inp 0 (.insert [3] 53) fun _ => .ask 2 .enumerate fun _ => .ask 1 (.delete [9]) fun _ => .done else .done

example : pairSees (rbImpl compareBytes 41).toO (strAsk compareBytes 41) strQuarantine strJobs ((List.replicate 120 [false, true, false]).flatten)
    none (some [.answer (some (.val (some 50))), .call true, .answer (some (.all [([2], 51), ([3], 50), ([9], 52)])), .answer (some (.flag false))]) = true := by decide +kernel

/-- dltree: goroutine `false` has the damaged trees of the history with the panic; its first call panics, and it goes on accordingly. -/
def dlJobs : Bool → Job (DL.Op Nat) AskDl (Ans (Bytes × Nat) Nat)
  | false => .cow 0 (.insert (txt "g") 7) fun b => .ask 1 .rawEnumerate fun _ => .inp 0 (.insert (txt "b") 8) fun _ => .ask 1 (.get (txt "b")) fun _ =>
      if b then .done else .ask 0 (.delete (txt "x")) fun _ => .done
  | true => .ask 0 (.get (txt "c")) fun _ => .inp 1 (.rawInsert (txt "F") 12) fun _ => .cow 1 (.delete (txt "C")) fun _ => .ask 2 .rawEnumerate fun _ => .ask 1 .rawEnumerate fun _ => .done

example : pairSees (DLHeap.dlImpl true 30) (dlAsk 30) dlQuarantine dlJobs ((List.replicate 110 [false, true]).flatten)
    (some [.call false, .answer (some (.all [(txt "B", 3), (txt "B", 1), (txt "C", 2), (txt "D", 4), (txt "E", 6), (txt "F", 5)])), .call true, .answer (some (.val (some 3))),
      .answer (some (.flag false))])
    (some [.answer (some (.val (some 50))), .call true, .call true, .answer (some (.all [(txt "F", 12)])), .answer (some (.all [(txt "C", 50), (txt "F", 12)]))]) = true := by decide +kernel

/-- domaintree, likewise. -/
def domJobs : Bool → Job (DomTree.Op Nat) AskDom (Ans (Bytes × Nat) Nat)
  | false => .cow 0 (.insert (nm "g") 7) fun b => .ask 1 .enumerate fun _ => if b then .done else .inp 0 (.inplace (nm "x.b") 8) fun _ => .ask 0 (.get (nm "x.b")) fun _ => .done
  | true => .ask 0 (.get (nm "www.c")) fun _ => .inp 1 (.inplace (nm "f") 12) fun _ => .cow 1 (.delete (nm "www.c")) fun _ => .ask 2 .enumerate fun _ => .fresh (.ask 3 .enumerate fun _ => .done)

example : pairSees (DomHeap.domImpl true 128) (domAsk 128) domQuarantine domJobs ((List.replicate 110 [false, true]).flatten)
    (some [.call false, .answer (some (.all [(txt "b", 3), (txt "b", 1), (txt "c", 2), (txt "d", 4), (txt "e", 6), (txt "f", 5)])), .call true, .answer (some (.val (some 8)))])
    (some [.answer (some (.val (some 50))), .call true, .call true, .answer (some (.all [(txt "f", 12)])), .answer (some (.all []))]) = true := by decide +kernel

/-- numtree. -/
def numJobs : Bool → Job (Num.NumOp 32 Nat) (AskNum 32) (Ans (Num.ND 32 Nat) Nat)
  | false => .inp 1 (.insert 0x0A000000#32 8 20) fun _ => .ask 2 (.best 0x0A010203#32 32) fun _ => .ask 1 (.exact 0x0A000000#32 8) fun _ => .done
  | true => .inp 1 (.insert 0x0A000000#32 8 30) fun _ => .cow 1 (.delete 0x0A000000#32 8) fun _ => .ask 1 (.exact 0x0A000000#32 8) fun _ => .ask 2 (.exact 0x0A000000#32 8) fun _ => .done

example : pairSees (NumHeap.numImpl 34 32 Nat).toO (numAsk 34) (numKin.map (·, true)) numJobs ((List.replicate 20 [true, false]).flatten)
    (some [.call true, .answer (some (.val (some 2))), .answer (some (.val (some 20)))])
    (some [.call true, .call true, .answer (some (.val (some 30))), .answer (some (.val none))]) = true := by decide +kernel

/-- iptree: the trees of origin 0 share nodes. -/
def ipJobs {A : Type} : Bool → Job (IP.Op Nat) AskIp A
  | false => .inp 2 (.insertNet (some (net6 0x20 0x01 0 0 64)) 20) fun _ => .ask 3 .enumerate fun _ => .ask 2 (.get (some (net6 0x20 0x01 0 0 64))) fun _ => .done
  | true => .inp 1 (.insertIP [10, 1, 1, 1] 30) fun _ => .cow 1 (.deleteByNet (some (net6 0x20 0x01 0 0 64))) fun _ => .ask 2 .enumerate fun _ => .ask 0 .enumerate fun _ => .done

/-- What goroutine `false` inserts in one of its trees shows in another of its trees (20, see C97). -/
example : pairSees (IPHeap.ipImpl true 66) (ipAsk 66) (ipShared.map (·, true)) ipJobs ((List.replicate 30 [true, false]).flatten)
    (some [.call true, .answer (some (.all [(net4 10 0 0 0 8, some 3), (net4 10 1 1 1 32, some 5), (net6 0x20 0x01 0 0 64, some 20), (net6 0x20 0x01 0 1 128, some 2),
      (net6 0x20 0x01 0 3 128, some 4)])), .answer (some (.val (some (some 20))))])
    (some [.call true, .call true, .answer (some (.all [(net4 10 1 1 1 32, some 30)])), .answer (some (.all []))]) = true := by decide +kernel

/-- The generated trees, likewise. -/
example : pairSees (UIPHeap.uipImpl true 66) (uipAsk 66) (uipShared.map (·, true)) ipJobs ((List.replicate 30 [true, false]).flatten)
    (some [.call true, .answer (some (.all [(net4 10 0 0 0 8, 3), (net4 10 1 1 1 32, 5), (net6 0x20 0x01 0 0 16, 8), (net6 0x20 0x01 0 0 64, 20), (net6 0x20 0x01 0 1 128, 2),
      (net6 0x20 0x01 0 3 128, 4)])), .answer (some (.val (some 20)))])
    (some [.call true, .call true, .answer (some (.all [(net4 10 1 1 1 32, 30)])), .answer (some (.all []))]) = true := by decide +kernel

/-- The condition that no two goroutines have trees of the same origin is needed: here both have those of origin 0.  One inserts in place in tree 2, the other looks in tree 3, and finds
what it would not find alone. -/
def sameOrigin : Bool → Job (IP.Op Nat) AskIp (Ans (IPNet × Option Nat) (Option Nat))
  | false => .inp 2 (.insertNet (some (net6 0x20 0x01 0 0 64)) 20) fun _ => .done
  | true => .ask 3 (.get (some (net6 0x20 0x01 0 0 64))) fun _ => .done

theorem C103_same_origin : ∃ s, OStore.init.execR (IPHeap.ipImpl true 66) (ipShared.map (·, true)) = some s ∧
    let start := teamOf (IPHeap.ipImpl true 66) (ipAsk 66) (ipShared.map (·, true)) s (fun _ : Bool => 0) sameOrigin
    ended ((start.exec (List.replicate 20 false ++ List.replicate 20 true)).prog true) = some [.answer (some (.val (some (some 20))))] ∧
    answer (start.prog true) s.heap = some [.answer (some (.val (some (some 1))))] := by
  have key : (OStore.init.execR (IPHeap.ipImpl true 66) (ipShared.map (·, true))).any (fun s =>
      let start := teamOf (IPHeap.ipImpl true 66) (ipAsk 66) (ipShared.map (·, true)) s (fun _ : Bool => 0) sameOrigin
      decide (ended ((start.exec (List.replicate 20 false ++ List.replicate 20 true)).prog true) = some [.answer (some (.val (some (some 20))))]) &&
      decide (answer (start.prog true) s.heap = some [.answer (some (.val (some (some 1))))])) = true := by decide +kernel
  obtain ⟨s, hs, h⟩ := Option.any_eq_true _ _ |>.1 key
  rw [Bool.and_eq_true, decide_eq_true_eq, decide_eq_true_eq] at h
  exact ⟨s, hs, h⟩

end Verif.Props
