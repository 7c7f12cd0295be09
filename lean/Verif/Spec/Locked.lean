import Verif.Spec.Guard

/-!
# What goroutines sharing a tree under a read-write lock should see, with loops over Enumerate

As in `Spec/Guard.lean`; the board also knows the channels each goroutine has opened by `Enumerate`: the tree as it was then and what was received.
-/

namespace Verif.Heap
variable {T O K A E : Type}

/-- An event: one without channels; goroutine `t` called `Enumerate`; goroutine `t` received `x` from the `ch`-th channel it has opened (`none`: closed). -/
inductive LEvent (T O K A E : Type) where
  | plain (e : GEvent T O K A)
  | range (t : T)
  | got (t : T) (ch : Nat) (x : Option E)

/-- Who made the event. -/
def LEvent.who : LEvent T O K A E → T
  | .plain e => e.who
  | .range t => t
  | .got t _ _ => t

/-- The board with, for every goroutine and every channel it has opened, the tree and what was received. -/
structure LBoard (T O E : Type) where
  board : GBoard T O
  chans : T → List (List O × List E)

variable [DecidableEq T]

/-- Replace the channels of goroutine `t`. -/
def LBoard.setChans (b : LBoard T O E) (t : T) (q : List (List O × List E)) : LBoard T O E := { b with chans := fun u => if u = t then q else b.chans u }

/-- An event on the board. -/
def LBoard.step (b : LBoard T O E) : LEvent T O K A E → LBoard T O E
  | .plain e => { b with board := b.board.step e }
  | .range t => b.setChans t (b.chans t ++ [(b.board.tree, [])])
  | .got t ch x => b.setChans t (match (b.chans t)[ch]? with
    | none => b.chans t
    | some (l, xs) => (b.chans t).set ch (l, xs ++ x.toList))

/-- A record on the board. -/
def LBoard.replay (b : LBoard T O E) : List (LEvent T O K A E) → LBoard T O E
  | [] => b
  | e :: es => (b.step e).replay es

omit [DecidableEq T] in
/-- Goroutine `t` has the lock, for writing or for reading. -/
def GBoard.Has (b : GBoard T O) (t : T) : Prop := b.writer = some t ∧ b.readers = [] ∨ b.writer = none ∧ t ∈ b.readers

/-- Events that are as they should be: those without channels as in `GBoard.Fits`; `Enumerate` and receiving need the lock; what is received from a channel goes on with a right listing
(`L`) of the tree as it was when `Enumerate` was called, and the channel is closed when the listing is complete, not before. -/
def LBoard.Fits (P : K → List O → A → Prop) (L : List O → List E → Prop) (b : LBoard T O E) : LEvent T O K A E → Prop
  | .plain e => b.board.Fits P e
  | .range t => b.board.Has t
  | .got t ch x => b.board.Has t ∧ ∃ l xs rest, (b.chans t)[ch]? = some (l, xs) ∧ L l (xs ++ x.toList ++ rest) ∧ (x = none → rest = [])

def LBoard.FitsAll (P : K → List O → A → Prop) (L : List O → List E → Prop) (b : LBoard T O E) : List (LEvent T O K A E) → Prop
  | [] => True
  | e :: es => b.Fits P L e ∧ (b.step e).FitsAll P L es

theorem LBoard.replay_append (b : LBoard T O E) (es fs : List (LEvent T O K A E)) : b.replay (es ++ fs) = (b.replay es).replay fs := by
  induction es generalizing b with
  | nil => rfl
  | cons e es ih => exact ih _

theorem LBoard.fitsAll_append (P : K → List O → A → Prop) (L : List O → List E → Prop) (b : LBoard T O E) (es fs : List (LEvent T O K A E)) :
    b.FitsAll P L (es ++ fs) ↔ b.FitsAll P L es ∧ (b.replay es).FitsAll P L fs := by
  induction es generalizing b with
  | nil => simp [FitsAll, replay]
  | cons e es ih => simp only [List.cons_append, FitsAll, replay, ih, and_assoc]

omit [DecidableEq T] in
/-- Sections are atomic: from taking the lock for writing to giving it back there is no event of another goroutine, and from taking it for reading to giving
it back there is no change. -/
def LSections (es : List (LEvent T O K A E)) : Prop :=
  ∀ pre mid post t, (es = pre ++ .plain (.lock t) :: (mid ++ post) → (.plain (.unlock t) ∉ mid) → ∀ e ∈ mid, e.who = t) ∧
    (es = pre ++ .plain (.rlock t) :: (mid ++ post) → (.plain (.runlock t) ∉ mid) → ∀ u o, .plain (.change u o) ∉ mid)

/-- While `t` has the lock for writing only `t` makes events. -/
theorem lfits_writer {P : K → List O → A → Prop} {L : List O → List E → Prop} {b : LBoard T O E} {es : List (LEvent T O K A E)} {t : T} (hf : b.FitsAll P L es)
    (hw : b.board.writer = some t) (hr : b.board.readers = []) (hn : .plain (.unlock t) ∉ es) : ∀ e ∈ es, e.who = t := by
  induction es generalizing b with
  | nil => simp
  | cons e es ih =>
    obtain ⟨h1, h2⟩ := hf
    have has : ∀ u, b.board.Has u → u = t := by
      intro u hu
      rcases hu with h | h
      · rw [hw] at h; exact (Option.some.inj h.1).symm
      · rw [hw] at h; cases h.1
    have key : e.who = t ∧ (b.step e).board.writer = some t ∧ (b.step e).board.readers = [] := by
      cases e with
      | plain e =>
        have h1 : b.board.FitsAll P [e] := ⟨h1, trivial⟩
        refine ⟨fits_writer h1 hw hr (by simp only [List.mem_singleton]; rintro rfl; simp at hn) e (by simp), ?_⟩
        have h1 := h1.1
        cases e with
        | lock u => simp [GBoard.Fits, hw] at h1
        | unlock u =>
          simp only [GBoard.Fits, hw, Option.some.injEq] at h1
          subst h1
          simp at hn
        | rlock u => simp [GBoard.Fits, hw] at h1
        | runlock u => simp [GBoard.Fits, hw] at h1
        | change u o => exact ⟨hw, hr⟩
        | answer u k a => exact ⟨hw, hr⟩
      | range u => exact ⟨has u h1, hw, hr⟩
      | got u ch x => exact ⟨has u h1.1, hw, hr⟩
    intro x hx
    rcases List.mem_cons.1 hx with rfl | hx
    · exact key.1
    · exact ih h2 key.2.1 key.2.2 (fun h => hn (List.mem_cons_of_mem _ h)) x hx

/-- While `t` has the lock for reading there is no change. -/
theorem lfits_reader {P : K → List O → A → Prop} {L : List O → List E → Prop} {b : LBoard T O E} {es : List (LEvent T O K A E)} {t : T} (hf : b.FitsAll P L es)
    (hr : t ∈ b.board.readers) (hn : .plain (.runlock t) ∉ es) : ∀ u o, .plain (.change u o) ∉ es := by
  induction es generalizing b with
  | nil => simp
  | cons e es ih =>
    obtain ⟨h1, h2⟩ := hf
    intro u o hx
    have key : e ≠ .plain (.change u o) ∧ t ∈ (b.step e).board.readers := by
      cases e with
      | plain e =>
        cases e with
        | lock v => simp [LBoard.Fits, GBoard.Fits] at h1; rw [h1.2] at hr; simp at hr
        | unlock v => exact ⟨by simp, hr⟩
        | rlock v => exact ⟨by simp, List.mem_cons_of_mem _ hr⟩
        | runlock v =>
          refine ⟨by simp, ?_⟩
          have : t ≠ v := by rintro rfl; simp at hn
          simp only [LBoard.step, GBoard.step]
          exact (List.mem_erase_of_ne this).2 hr
        | change v o => simp [LBoard.Fits, GBoard.Fits] at h1; rw [h1.2] at hr; simp at hr
        | answer v k a => exact ⟨by simp, hr⟩
      | range v => exact ⟨by simp, hr⟩
      | got v ch x => exact ⟨by simp, hr⟩
    rcases List.mem_cons.1 hx with rfl | hx
    · exact key.1 rfl
    · exact ih h2 key.2 (fun h => hn (List.mem_cons_of_mem _ h)) u o hx

theorem lfits_sections {P : K → List O → A → Prop} {L : List O → List E → Prop} {b : LBoard T O E} {es : List (LEvent T O K A E)} (hf : b.FitsAll P L es) : LSections es := by
  intro pre mid post t
  constructor
  · rintro rfl hn
    rw [LBoard.fitsAll_append] at hf
    obtain ⟨_, h1, h2⟩ := hf
    rw [LBoard.fitsAll_append] at h2
    exact lfits_writer h2.1 rfl h1.2 hn
  · rintro rfl hn
    rw [LBoard.fitsAll_append] at hf
    obtain ⟨_, h1, h2⟩ := hf
    rw [LBoard.fitsAll_append] at h2
    exact lfits_reader h2.1 (by simp [LBoard.step, GBoard.step]) hn

end Verif.Heap
