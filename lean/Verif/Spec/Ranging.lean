import Verif.Spec.Publish

/-!
# What goroutines sharing a variable should see, with loops over Enumerate

As in `Spec/Publish.lean`; the board also knows the channels each goroutine has opened by `Enumerate`: the tree each belongs to and what was received from it.
-/

namespace Verif.Heap
variable {T O K A E : Type}

/-- An event: one without channels; goroutine `t` called `Enumerate` on its `i`-th tree; goroutine `t` received `x` from the `ch`-th channel it has opened (`none`: closed). -/
inductive REvent (T O K A E : Type) where
  | plain (e : PEvent T O K A)
  | range (t : T) (i : Nat)
  | got (t : T) (ch : Nat) (x : Option E)

/-- The board with, for every goroutine and every channel it has opened, the tree and what was received. -/
structure RBoard (T O E : Type) where
  board : Board T O
  chans : T → List (List O × List E)

variable [DecidableEq T]

/-- Replace the channels of goroutine `t`. -/
def RBoard.setChans (b : RBoard T O E) (t : T) (q : List (List O × List E)) : RBoard T O E := { b with chans := fun u => if u = t then q else b.chans u }

/-- An event on the board. -/
def RBoard.step (b : RBoard T O E) : REvent T O K A E → RBoard T O E
  | .plain e => { b with board := b.board.step e }
  | .range t i => b.setChans t (b.chans t ++ [(((b.board.held t)[i]?).getD [], [])])
  | .got t ch x => b.setChans t (match (b.chans t)[ch]? with
    | none => b.chans t
    | some (l, xs) => (b.chans t).set ch (l, xs ++ x.toList))

/-- A record on the board. -/
def RBoard.replay (b : RBoard T O E) : List (REvent T O K A E) → RBoard T O E
  | [] => b
  | e :: es => (b.step e).replay es

/-- Events that are as they should be: those without channels as in `Board.Fits`; what is received from a channel goes on with a right listing (`L`) of the tree as it was when
`Enumerate` was called, and the channel is closed when the listing is complete, not before. -/
def RBoard.Fits (P : K → List O → A → Prop) (L : List O → List E → Prop) (b : RBoard T O E) : REvent T O K A E → Prop
  | .plain e => b.board.Fits P e
  | .range t i => i < (b.board.held t).length
  | .got t ch x => ∃ l xs rest, (b.chans t)[ch]? = some (l, xs) ∧ L l (xs ++ x.toList ++ rest) ∧ (x = none → rest = [])

def RBoard.FitsAll (P : K → List O → A → Prop) (L : List O → List E → Prop) (b : RBoard T O E) : List (REvent T O K A E) → Prop
  | [] => True
  | e :: es => b.Fits P L e ∧ (b.step e).FitsAll P L es

theorem RBoard.replay_append (b : RBoard T O E) (es fs : List (REvent T O K A E)) : b.replay (es ++ fs) = (b.replay es).replay fs := by
  induction es generalizing b with
  | nil => rfl
  | cons e es ih => exact ih _

theorem RBoard.fitsAll_append (P : K → List O → A → Prop) (L : List O → List E → Prop) (b : RBoard T O E) (es fs : List (REvent T O K A E)) :
    b.FitsAll P L (es ++ fs) ↔ b.FitsAll P L es ∧ (b.replay es).FitsAll P L fs := by
  induction es generalizing b with
  | nil => simp [FitsAll, replay]
  | cons e es ih => simp only [List.cons_append, FitsAll, replay, ih, and_assoc]

end Verif.Heap
