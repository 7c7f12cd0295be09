import Verif.Heap.Store

/-!
# What goroutines sharing a tree under a read-write lock should see

Goroutines `T` share one tree and a `sync.RWMutex`.  What they do is recorded as a list of events, oldest first.  The record is replayed on a board
that knows no memory: the tree is the chain of calls that made it (newest first).
-/

namespace Verif.Heap
variable {T O K A : Type}

/-- One event of goroutine `t`: it took or gave back the lock for writing or for reading, finished a change of the tree, got the answer `a` to the question `k`. -/
inductive GEvent (T O K A : Type) where
  | lock (t : T)
  | unlock (t : T)
  | rlock (t : T)
  | runlock (t : T)
  | change (t : T) (o : O)
  | answer (t : T) (k : K) (a : A)

/-- Who made the event. -/
def GEvent.who : GEvent T O K A → T
  | .lock t => t
  | .unlock t => t
  | .rlock t => t
  | .runlock t => t
  | .change t _ => t
  | .answer t _ _ => t

/-- The tree, who has the lock for writing, and who has it for reading. -/
structure GBoard (T O : Type) where
  tree : List O
  writer : Option T
  readers : List T

variable [DecidableEq T]

/-- An event on the board. -/
def GBoard.step (b : GBoard T O) : GEvent T O K A → GBoard T O
  | .lock t => { b with writer := some t }
  | .unlock _ => { b with writer := none }
  | .rlock t => { b with readers := t :: b.readers }
  | .runlock t => { b with readers := b.readers.erase t }
  | .change _ o => { b with tree := o :: b.tree }
  | .answer _ _ _ => b

/-- A record on the board. -/
def GBoard.replay (b : GBoard T O) : List (GEvent T O K A) → GBoard T O
  | [] => b
  | e :: es => (b.step e).replay es

/-- Events that are as they should be: the lock for writing excludes everything else, changes need it, questions need one of the two, and answers are
right (`P`) for the tree as changed by all changes recorded before. -/
def GBoard.Fits (P : K → List O → A → Prop) (b : GBoard T O) : GEvent T O K A → Prop
  | .lock _ => b.writer = none ∧ b.readers = []
  | .unlock t => b.writer = some t
  | .rlock _ => b.writer = none
  | .runlock t => b.writer = none ∧ t ∈ b.readers
  | .change t _ => b.writer = some t ∧ b.readers = []
  | .answer t k a => (b.writer = some t ∧ b.readers = [] ∨ b.writer = none ∧ t ∈ b.readers) ∧ P k b.tree a

def GBoard.FitsAll (P : K → List O → A → Prop) (b : GBoard T O) : List (GEvent T O K A) → Prop
  | [] => True
  | e :: es => b.Fits P e ∧ (b.step e).FitsAll P es

theorem GBoard.replay_append (b : GBoard T O) (es fs : List (GEvent T O K A)) : b.replay (es ++ fs) = (b.replay es).replay fs := by
  induction es generalizing b with
  | nil => rfl
  | cons e es ih => exact ih _

theorem GBoard.fitsAll_append (P : K → List O → A → Prop) (b : GBoard T O) (es fs : List (GEvent T O K A)) :
    b.FitsAll P (es ++ fs) ↔ b.FitsAll P es ∧ (b.replay es).FitsAll P fs := by
  induction es generalizing b with
  | nil => simp [FitsAll, replay]
  | cons e es ih => simp only [List.cons_append, FitsAll, replay, ih, and_assoc]

omit [DecidableEq T] in
/-- Sections are atomic: from taking the lock for writing to giving it back there is no event of another goroutine, and from taking it for reading to giving
it back there is no change. -/
def Sections (es : List (GEvent T O K A)) : Prop :=
  ∀ pre mid post t, (es = pre ++ .lock t :: (mid ++ post) → (.unlock t ∉ mid) → ∀ e ∈ mid, e.who = t) ∧
    (es = pre ++ .rlock t :: (mid ++ post) → (.runlock t ∉ mid) → ∀ u o, .change u o ∉ mid)

/-- While `t` has the lock for writing only `t` makes events. -/
theorem fits_writer {P : K → List O → A → Prop} {b : GBoard T O} {es : List (GEvent T O K A)} {t : T} (hf : b.FitsAll P es) (hw : b.writer = some t) (hr : b.readers = [])
    (hn : .unlock t ∉ es) : ∀ e ∈ es, e.who = t := by
  induction es generalizing b with
  | nil => simp
  | cons e es ih =>
    obtain ⟨h1, h2⟩ := hf
    have key : e.who = t ∧ (b.step e).writer = some t ∧ (b.step e).readers = [] := by
      cases e with
      | lock u => simp [GBoard.Fits, hw] at h1
      | unlock u =>
        simp only [GBoard.Fits, hw, Option.some.injEq] at h1
        subst h1
        simp at hn
      | rlock u => simp [GBoard.Fits, hw] at h1
      | runlock u => simp [GBoard.Fits, hw] at h1
      | change u o =>
        simp only [GBoard.Fits, hw, Option.some.injEq] at h1
        exact ⟨h1.1.symm, hw, hr⟩
      | answer u k a =>
        simp only [GBoard.Fits, hw, hr, Option.some.injEq] at h1
        rcases h1.1 with h | h
        · exact ⟨h.1.symm, hw, hr⟩
        · cases h.1
    intro x hx
    rcases List.mem_cons.1 hx with rfl | hx
    · exact key.1
    · exact ih h2 key.2.1 key.2.2 (fun h => hn (List.mem_cons_of_mem _ h)) x hx

/-- While `t` has the lock for reading there is no change. -/
theorem fits_reader {P : K → List O → A → Prop} {b : GBoard T O} {es : List (GEvent T O K A)} {t : T} (hf : b.FitsAll P es) (hr : t ∈ b.readers)
    (hn : .runlock t ∉ es) : ∀ u o, .change u o ∉ es := by
  induction es generalizing b with
  | nil => simp
  | cons e es ih =>
    obtain ⟨h1, h2⟩ := hf
    intro u o hx
    have key : e ≠ .change u o ∧ t ∈ (b.step e).readers := by
      cases e with
      | lock v => simp [GBoard.Fits] at h1; rw [h1.2] at hr; simp at hr
      | unlock v => exact ⟨by simp, hr⟩
      | rlock v => exact ⟨by simp, List.mem_cons_of_mem _ hr⟩
      | runlock v =>
        refine ⟨by simp, ?_⟩
        have : t ≠ v := by rintro rfl; simp at hn
        simp only [GBoard.step]
        exact (List.mem_erase_of_ne this).2 hr
      | change v o => simp [GBoard.Fits] at h1; rw [h1.2] at hr; simp at hr
      | answer v k a => exact ⟨by simp, hr⟩
    rcases List.mem_cons.1 hx with rfl | hx
    · exact key.1 rfl
    · exact ih h2 key.2 (fun h => hn (List.mem_cons_of_mem _ h)) u o hx

theorem fits_sections {P : K → List O → A → Prop} {b : GBoard T O} {es : List (GEvent T O K A)} (hf : b.FitsAll P es) : Sections es := by
  intro pre mid post t
  constructor
  · rintro rfl hn
    rw [GBoard.fitsAll_append] at hf
    obtain ⟨_, h1, h2⟩ := hf
    rw [GBoard.fitsAll_append] at h2
    exact fits_writer h2.1 rfl h1.2 hn
  · rintro rfl hn
    rw [GBoard.fitsAll_append] at hf
    obtain ⟨_, h1, h2⟩ := hf
    rw [GBoard.fitsAll_append] at h2
    exact fits_reader h2.1 (by simp [GBoard.step]) hn

end Verif.Heap
