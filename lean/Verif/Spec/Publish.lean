import Verif.Heap.Store

/-!
# What goroutines sharing a variable should see

Goroutines `T` share one variable with a tree in it and a lock.  What they do is recorded as a list of events, oldest first.  The
record is replayed on a board that knows no memory: trees are the chains of calls that make them (newest first).
-/

namespace Verif.Heap
variable {T O K A : Type}

/-- One event of goroutine `t`: it took the tree in the variable, forgot a tree it held, finished a call on a tree it held, put a tree it held
into the variable, got the answer `x` to the question `k` about its `i`-th tree (`none` if it has no such tree), took the lock, gave it back. -/
inductive PEvent (T O K A : Type) where
  | load (t : T)
  | drop (t : T) (i : Nat)
  | call (t : T) (op : SOp O)
  | store (t : T) (i : Nat)
  | answer (t : T) (i : Nat) (k : K) (x : Option A)
  | lock (t : T)
  | unlock (t : T)

/-- The tree in the variable, the trees held by each goroutine, and who has the lock. -/
structure Board (T O : Type) where
  pub : List O
  held : T → List (List O)
  holder : Option T

/-- Trees held after a call. -/
def afterCall (ls : List (List O)) : SOp O → List (List O)
  | .fresh => ls ++ [[]]
  | .cow i o => match ls[i]? with
    | none => ls
    | some l => ls ++ [o :: l]
  | .inp i o => match ls[i]? with
    | none => ls
    | some l => ls.set i (o :: l)
  | .drop i => ls.eraseIdx i

variable [DecidableEq T]

/-- Replace what goroutine `t` holds. -/
def Board.setHeld (b : Board T O) (t : T) (ls : List (List O)) : Board T O := { b with held := fun u => if u = t then ls else b.held u }

/-- An event on the board. -/
def Board.step (b : Board T O) : PEvent T O K A → Board T O
  | .load t => b.setHeld t (b.held t ++ [b.pub])
  | .drop t i => b.setHeld t ((b.held t).eraseIdx i)
  | .call t op => b.setHeld t (afterCall (b.held t) op)
  | .store t i => { b with pub := ((b.held t)[i]?).getD b.pub }
  | .answer _ _ _ _ => b
  | .lock t => { b with holder := some t }
  | .unlock _ => { b with holder := none }

/-- A record on the board. -/
def Board.replay (b : Board T O) : List (PEvent T O K A) → Board T O
  | [] => b
  | e :: es => (b.step e).replay es

/-- Events that are as they should be: answers are right (`P`) for the tree asked about, the lock goes to one goroutine at a time, and only
its holder makes calls that change or make trees and puts trees into the variable. -/
def Board.Fits (P : K → List O → A → Prop) (b : Board T O) : PEvent T O K A → Prop
  | .load _ => True
  | .drop _ _ => True
  | .call t _ => b.holder = some t
  | .store t i => b.holder = some t ∧ i < (b.held t).length
  | .answer t i k x => match (b.held t)[i]? with
    | none => x = none
    | some l => ∃ a, x = some a ∧ P k l a
  | .lock _ => b.holder = none
  | .unlock t => b.holder = some t

def Board.FitsAll (P : K → List O → A → Prop) (b : Board T O) : List (PEvent T O K A) → Prop
  | [] => True
  | e :: es => b.Fits P e ∧ (b.step e).FitsAll P es

theorem Board.replay_append (b : Board T O) (es fs : List (PEvent T O K A)) : b.replay (es ++ fs) = (b.replay es).replay fs := by
  induction es generalizing b with
  | nil => rfl
  | cons e es ih => exact ih _

theorem Board.fitsAll_append (P : K → List O → A → Prop) (b : Board T O) (es fs : List (PEvent T O K A)) :
    b.FitsAll P (es ++ fs) ↔ b.FitsAll P es ∧ (b.replay es).FitsAll P fs := by
  induction es generalizing b with
  | nil => simp [FitsAll, replay]
  | cons e es ih => simp only [List.cons_append, FitsAll, replay, ih, and_assoc]

/-! ## A variable as an atomic map -/

/-- What a goroutine does with the map: change it or ask it. -/
inductive Do (O K : Type) where
  | upd (o : O)
  | get (k : K)

/-- An operation of goroutine `who` with its answer, taking effect with the event at position `pos` of the record. -/
structure Lin (T O K A : Type) where
  pos : Nat
  who : T
  op : Do O K
  ans : Option A

/-- The chain after the operations. -/
def chainAfter (l : List O) : List (Lin T O K A) → List O
  | [] => l
  | ⟨_, _, .upd o, _⟩ :: z => chainAfter (o :: l) z
  | ⟨_, _, .get _, _⟩ :: z => chainAfter l z

/-- Operations one after the other: every answer is right for the changes made before. -/
def Atomic (P : K → List O → A → Prop) (l : List O) : List (Lin T O K A) → Prop
  | [] => True
  | ⟨_, _, .upd o, _⟩ :: z => Atomic P (o :: l) z
  | ⟨_, _, .get k, x⟩ :: z => (∀ a, x = some a → P k l a) ∧ Atomic P l z

/-- The operations of goroutine `t`. -/
def opsOf (t : T) (z : List (Lin T O K A)) : List (Do O K) := z.filterMap fun e => if e.who = t then some e.op else none

/-- The answers goroutine `t` got, in order. -/
def answersOf (t : T) (log : List (PEvent T O K A)) : List (Option A) := log.filterMap fun
  | .answer u _ _ x => if u = t then some x else none
  | _ => none

/-- The answers goroutine `t` should have got. -/
def linAnswers (t : T) (z : List (Lin T O K A)) : List (Option A) := z.filterMap fun
  | ⟨_, u, .get _, x⟩ => if u = t then some x else none
  | ⟨_, _, .upd _, _⟩ => none

end Verif.Heap
