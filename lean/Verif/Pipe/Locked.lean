import Verif.Heap.Guard
import Verif.Pipe.RangingSound
import Verif.Spec.Locked

/-!
# Goroutines sharing a tree under a read-write lock, with loops over Enumerate

As in `Heap/Guard.lean`, and besides: a goroutine that has the lock may call `Enumerate` and receive from the channel it gets.  `Enumerate` starts goroutines (`Pipe/Model.lean`) that
walk the tree while everybody goes on; they know nothing of the lock.
-/

namespace Verif.Pipe
open Verif.Heap Verif.Heap.Prog
variable {D T O R K A B E : Type}

/-- What a goroutine does (`GAct` with two more): `range`: `tree.Enumerate()`; the channel gets the next number.  `next ch`: receive from the `ch`-th channel and, unless it
is closed, read off the fields of the value received. -/
inductive LAct (O K A E : Type) where
  | done
  | lock (c : LAct O K A E)
  | unlock (c : LAct O K A E)
  | rlock (c : LAct O K A E)
  | runlock (c : LAct O K A E)
  | change (cow : Bool) (o : O) (c : LAct O K A E)
  | read (k : K) (c : A → LAct O K A E)
  | range (c : LAct O K A E)
  | next (ch : Nat) (c : Option E → LAct O K A E)

/-- Where a goroutine is (`GPhase` with one more): reading off a value received. -/
inductive LPhase (D O R K A E : Type) where
  | idle (g : LAct O K A E)
  | changing (cow : Bool) (o : O) (p : Prog D R) (g : LAct O K A E)
  | reading (k : K) (p : Prog D A) (c : A → LAct O K A E)
  | taking (ch : Nat) (p : Prog D E) (c : Option E → LAct O K A E)

/-- A goroutine: where it is, and the goroutines behind its channels. -/
structure LGor (D O R K A B E : Type) where
  phase : LPhase D O R K A E
  chans : List (Proc (Cell D) B)

/-- Memory, the tree, the lock, the goroutines, and the record of events. -/
structure LHub (D T O R K A B E : Type) where
  heap : Heap D
  root : R
  writer : Option T
  readers : List T
  th : T → LGor D O R K A B E
  log : List (LEvent T O K A E)

variable [DecidableEq T]

def LHub.put (s : LHub D T O R K A B E) (t : T) (g : LGor D O R K A B E) : LHub D T O R K A B E := { s with th := fun u => if u = t then g else s.th u }
def LHub.note (s : LHub D T O R K A B E) (e : LEvent T O K A E) : LHub D T O R K A B E := { s with log := s.log ++ [e] }

/-- Goroutine `t` goes on to `ph`. -/
def LHub.to (s : LHub D T O R K A B E) (t : T) (ph : LPhase D O R K A E) : LHub D T O R K A B E := s.put t ⟨ph, (s.th t).chans⟩

/-- One step of goroutine `t` other than receiving.  It lets its turn pass if it has ended, has failed, or waits. -/
def LHub.step (I : OImpl D O R) (Rd : K → R → Prog D A) (Lp : Loop D R B E) (s : LHub D T O R K A B E) (t : T) : LHub D T O R K A B E :=
  match (s.th t).phase with
  | .idle .done => s
  | .idle (.lock c) => if s.writer = none ∧ s.readers = [] then { (s.to t (.idle c)).note (.plain (.lock t)) with writer := some t } else s
  | .idle (.unlock c) => { (s.to t (.idle c)).note (.plain (.unlock t)) with writer := none }
  | .idle (.rlock c) => if s.writer = none then { (s.to t (.idle c)).note (.plain (.rlock t)) with readers := t :: s.readers } else s
  | .idle (.runlock c) => { (s.to t (.idle c)).note (.plain (.runlock t)) with readers := s.readers.erase t }
  | .idle (.change cow o c) => s.to t (.changing cow o (if cow then I.cow o s.root else I.inp o s.root) c)
  | .idle (.read k c) => s.to t (.reading k (Rd k s.root) c)
  | .idle (.range c) => (s.put t ⟨.idle c, (s.th t).chans ++ [.mk (Lp.gen s.root) []]⟩).note (.range t)
  | .idle (.next _ _) => s
  | .changing _ o (.ret r) c => { (s.to t (.idle c)).note (.plain (.change t o)) with root := r }
  | .changing cow o p c => match p.step s.heap with
    | none => s
    | some (q, h) => { s.to t (.changing cow o q c) with heap := h }
  | .reading k (.ret a) c => (s.to t (.idle (c a))).note (.plain (.answer t k a))
  | .reading k p c => match p.step s.heap with
    | none => s
    | some (q, h) => { s.to t (.reading k q c) with heap := h }
  | .taking ch (.ret e) c => (s.to t (.idle (c (some e)))).note (.got t ch (some e))
  | .taking ch p c => match p.step s.heap with
    | none => s
    | some (q, h) => { s.to t (.taking ch q c) with heap := h }

/-- One step of the whole: of a goroutine, of one behind a channel, or a value or the closing of a channel received. -/
inductive LStep (I : OImpl D O R) (Rd : K → R → Prog D A) (Lp : Loop D R B E) (s : LHub D T O R K A B E) : LHub D T O R K A B E → Prop where
  | act (t : T) : LStep I Rd Lp s (s.step I Rd Lp t)
  | walk {t : T} {ch : Nat} {p p' : Proc (Cell D) B} : (s.th t).chans[ch]? = some p → PStep id s.heap p none p' →
      LStep I Rd Lp s (s.put t ⟨(s.th t).phase, (s.th t).chans.set ch p'⟩)
  | recv {t : T} {ch : Nat} {c : Option E → LAct O K A E} {p p' : Proc (Cell D) B} {b : B} : (s.th t).phase = .idle (.next ch c) → (s.th t).chans[ch]? = some p →
      PStep id s.heap p (some b) p' → LStep I Rd Lp s (s.put t ⟨.taking ch (Lp.item b) c, (s.th t).chans.set ch p'⟩)
  | closed {t : T} {ch : Nat} {c : Option E → LAct O K A E} {ks : List (Proc (Cell D) B)} : (s.th t).phase = .idle (.next ch c) → (s.th t).chans[ch]? = some (.mk .done ks) →
      LStep I Rd Lp s ((s.to t (.idle (c none))).note (.got t ch none))

omit [DecidableEq T] in
/-- The start: nobody has the lock or a channel. -/
def LHub.start (h : Heap D) (r : R) (act : T → LAct O K A E) : LHub D T O R K A B E := ⟨h, r, none, [], fun t => ⟨.idle (act t), []⟩, []⟩

/-- What goroutines may do: as in `GAct.Legal`.  `qs` is what the channels still deliver; `none` for a channel seen closed.  `Enumerate` and receiving need the lock.  All channels have
to be seen closed before the lock is given back and before the tree is changed in place; a copy-on-write call is fine while a loop is under way. -/
def LAct.Legal (J : List O → Prop) (cok iok : List O → O → Prop) (P : K → List O → A → Prop) (L : List O → List E → Prop) : LAct O K A E → Mode → List O → List (Option (List E)) → Prop
  | .done, m, _, _ => m = .free
  | .lock c, m, _, qs => m = .free ∧ ∀ l, J l → c.Legal J cok iok P L .sole l qs
  | .unlock c, m, l, qs => m = .sole ∧ J l ∧ (∀ q ∈ qs, q = none) ∧ c.Legal J cok iok P L .free [] qs
  | .rlock c, m, _, qs => m = .free ∧ ∀ l, J l → c.Legal J cok iok P L .shared l qs
  | .runlock c, m, _, qs => m = .shared ∧ (∀ q ∈ qs, q = none) ∧ c.Legal J cok iok P L .free [] qs
  | .change cow o c, m, l, qs => m = .sole ∧ (if cow then cok l o else iok l o ∧ ∀ q ∈ qs, q = none) ∧ c.Legal J cok iok P L .sole (o :: l) qs
  | .read k c, m, l, qs => m ≠ .free ∧ ∀ a, P k l a → (c a).Legal J cok iok P L m l qs
  | .range c, m, l, qs => m ≠ .free ∧ ∀ es, L l es → c.Legal J cok iok P L m l (qs ++ [some es])
  | .next ch c, m, l, qs => m ≠ .free ∧ match qs[ch]? with
    | some (some (e :: es)) => (c (some e)).Legal J cok iok P L m l (qs.set ch (some es))
    | some _ => (c none).Legal J cok iok P L m l (qs.set ch none)
    | none => False

omit [DecidableEq T] in
theorem LAct.Legal.any {J : List O → Prop} {cok iok : List O → O → Prop} {P : K → List O → A → Prop} {L : List O → List E → Prop} {g : LAct O K A E} {l : List O}
    {qs : List (Option (List E))} (h : g.Legal J cok iok P L .free l qs) (l' : List O) : g.Legal J cok iok P L .free l' qs := by
  cases g with
  | done => exact h
  | lock c => exact h
  | rlock c => exact h
  | unlock c => cases h.1
  | runlock c => cases h.1
  | change b o c => cases h.1
  | read k c => exact absurd rfl h.1
  | range c => exact absurd rfl h.1
  | next ch c => rw [LAct.Legal] at h; exact absurd rfl h.1

/-! ## Invariant -/

/-- A goroutine behind a channel that still delivers so much. -/
def LChanInv (Lp : Loop D R B E) (base : Nat) (h : Heap D) (p : Proc (Cell D) B) : Option (List E) → Prop
  | none => p.Over
  | some es => ChanInv Lp base h p es

/-- Where a goroutine is, and what it may do from there.  `Z`: the nodes the shared tree may consist of. -/
def LPhaseInv (I : OImpl D O R) (J : List O → Prop) (P : K → List O → A → Prop) (L : List O → List E → Prop) (Z : Addr → Prop) (base : Nat) (m : Mode) (l : List O) (h : Heap D)
    (qs : List (Option (List E))) : LPhase D O R K A E → Prop
  | .idle c => c.Legal J I.cowOk I.inpOk P L m l qs
  | .changing cow o p c => m = .sole ∧ c.Legal J I.cowOk I.inpOk P L .sole (o :: l) qs ∧ wp Z p (fun r h' => ∃ F, I.Obj h' r (o :: l) F ∧ ∀ x, F x → Z x) h ∧
    (if cow then ∃ G, wp (fun a => base ≤ a) p G h else ∀ q ∈ qs, q = none)
  | .reading k p c => m ≠ .free ∧ (∀ a, P k l a → (c a).Legal J I.cowOk I.inpOk P L m l qs) ∧ wp (fun _ => False) p (fun x h' => h' = h ∧ P k l x) h
  | .taking ch p c => m ≠ .free ∧ ∃ e es hs, qs[ch]? = some (some (e :: es)) ∧ (c (some e)).Legal J I.cowOk I.inpOk P L m l (qs.set ch (some es)) ∧ Since hs h ∧ hs.next ≤ base ∧
    wp (fun _ => False) p (fun x h2 => h2 = hs ∧ x = e) hs

/-- What the channels still deliver, without the value being read off. -/
def LPhase.behind (qs : List (Option (List E))) : LPhase D O R K A E → List (Option (List E))
  | .taking ch _ _ => qs.set ch (some (((qs[ch]?).getD none).getD []).tail)
  | _ => qs

/-- One goroutine and those behind its channels, which read memory below `base`. -/
structure LThInv (I : OImpl D O R) (Lp : Loop D R B E) (J : List O → Prop) (P : K → List O → A → Prop) (L : List O → List E → Prop) (Z : Addr → Prop) (base : Nat) (m : Mode) (l : List O)
    (h : Heap D) (g : LGor D O R K A B E) (chs : List (List O × List E)) (qs : List (Option (List E))) : Prop where
  low : base ≤ h.next
  phase : LPhaseInv I J P L Z base m l h qs g.phase
  free : m = .free → ∀ q ∈ qs, q = none
  chans : g.chans.length = qs.length ∧ ∀ (ch : Nat) p q, g.chans[ch]? = some p → (g.phase.behind qs)[ch]? = some q → LChanInv Lp base h p q
  lists : chs.length = qs.length ∧ ∀ (ch : Nat) x q, chs[ch]? = some x → qs[ch]? = some q → L x.1 (x.2 ++ q.getD [])

omit [DecidableEq T] in
theorem LPhase.behind_none {qs : List (Option (List E))} {ph : LPhase D O R K A E} {I : OImpl D O R} {J : List O → Prop} {P : K → List O → A → Prop} {L : List O → List E → Prop}
    {Z : Addr → Prop} {base : Nat} {m : Mode} {l : List O} {h : Heap D} (hp : LPhaseInv I J P L Z base m l h qs ph) (hq : ∀ q ∈ qs, q = none) : ph.behind qs = qs := by
  cases ph with
  | taking ch p c =>
    obtain ⟨_, e, es, hs, h1, _⟩ := hp
    exact absurd (hq _ (List.mem_of_getElem? h1)) (by simp)
  | _ => rfl

omit [DecidableEq T] in
/-- Who has no lock does not mind what happens. -/
theorem LThInv.any {I : OImpl D O R} {Lp : Loop D R B E} {J : List O → Prop} {P : K → List O → A → Prop} {L : List O → List E → Prop} {Z : Addr → Prop} {base : Nat} {l : List O}
    {h : Heap D} {g : LGor D O R K A B E} {chs : List (List O × List E)} {qs : List (Option (List E))} (hg : LThInv I Lp J P L Z base .free l h g chs qs) (l' : List O) (h' : Heap D) :
    LThInv I Lp J P L Z 0 .free l' h' g chs qs := by
  refine ⟨Nat.zero_le _, ?_, hg.free, ⟨hg.chans.1, fun ch p q h1 h2 => ?_⟩, hg.lists⟩
  · have := hg.phase
    cases hp : g.phase with
    | idle c => rw [hp] at this; exact LAct.Legal.any this l'
    | changing b o p c => rw [hp] at this; cases this.1
    | reading k p c => rw [hp] at this; exact absurd rfl this.1
    | taking ch p c => rw [hp] at this; exact absurd rfl this.1
  · have := hg.chans.2 ch p q h1 h2
    rw [LPhase.behind_none hg.phase (hg.free rfl)] at h2
    have hq := hg.free rfl q (List.mem_of_getElem? h2)
    subst hq
    exact this

/-- Goroutine `t` is in the middle of a change. -/
def LHub.inChange (s : LHub D T O R K A B E) (t : T) : Prop := match (s.th t).phase with
  | .changing _ _ _ _ => True
  | _ => False

/-- All of it.  `h0`: the memory at the start, `Z`: the nodes of the shared tree then and all nodes made since. -/
structure LockInv (I : OImpl D O R) (Lp : Loop D R B E) (J : List O → Prop) (P : K → List O → A → Prop) (L : List O → List E → Prop) (h0 : Heap D) (Z : Addr → Prop) (m : Nat)
    (s : LHub D T O R K A B E) (b : LBoard T O E) (qs : T → List (Option (List E))) : Prop where
  ok : s.heap.Ok
  next : h0.next ≤ s.heap.next
  keep : ∀ a, a < h0.next → ¬ Z a → s.heap.mem a = h0.mem a
  writer : b.board.writer = s.writer
  readers : b.board.readers = s.readers
  excl : s.writer = none ∨ s.readers = []
  nodup : s.readers.Nodup
  len : b.board.tree.length ≤ m
  inv : s.writer = none → J b.board.tree
  obj : (∀ t, ¬ s.inChange t) → ∃ F, I.Obj s.heap s.root b.board.tree F ∧ ∀ x, F x → Z x
  th : ∀ t, ∃ base, LThInv I Lp J P L Z base (modeOf s.writer s.readers t) b.board.tree s.heap (s.th t) (b.chans t) (qs t)

omit [DecidableEq T] in
theorem linChange_iff {s : LHub D T O R K A B E} {t : T} : s.inChange t ↔ ∃ b o p c, (s.th t).phase = .changing b o p c := by
  unfold LHub.inChange
  split
  · rename_i o p c h; simp [h]
  · rename_i h
    constructor
    · exact False.elim
    · rintro ⟨b, o, p, c, e⟩; exact h b o p c e

section
variable {I : OImpl D O R} {Lp : Loop D R B E} {J : List O → Prop} {P : K → List O → A → Prop} {L : List O → List E → Prop} {h0 : Heap D} {Z : Addr → Prop} {m : Nat}
  {s : LHub D T O R K A B E} {b : LBoard T O E} {qs : T → List (Option (List E))}

/-- While somebody has the lock for writing all others are without the lock. -/
theorem LockInv.alone (hi : LockInv I Lp J P L h0 Z m s b qs) {t u : T} (hw : s.writer = some t) (hne : u ≠ t) : modeOf s.writer s.readers u = .free := by
  have hr : s.readers = [] := by
    rcases hi.excl with h | h
    · rw [hw] at h; cases h
    · exact h
  have : ¬ t = u := fun h => hne h.symm
  simp [modeOf, hw, hr, this]

/-- If nobody but `t` could be changing the tree and `t` is not, nobody is. -/
theorem LockInv.quiet (hi : LockInv I Lp J P L h0 Z m s b qs) {t : T} (hm : modeOf s.writer s.readers t ≠ .free) (ht : ¬ s.inChange t) : ∀ u, ¬ s.inChange u := by
  intro u hu
  obtain ⟨_, o, p, c, e⟩ := linChange_iff.1 hu
  obtain ⟨base, h1⟩ := hi.th u
  have h1 := h1.phase
  rw [e] at h1
  have hw := modeOf_sole.1 h1.1
  by_cases htu : t = u
  · subst htu; exact ht hu
  · exact hm (hi.alone hw htu)

/-- Who has a lock, as the board says. -/
theorem LockInv.has (hi : LockInv I Lp J P L h0 Z m s b qs) {t : T} (hm : modeOf s.writer s.readers t ≠ .free) : b.board.Has t := by
  unfold GBoard.Has
  rw [hi.writer, hi.readers]
  by_cases hw : s.writer = some t
  · refine .inl ⟨hw, ?_⟩
    rcases hi.excl with h | h
    · rw [hw] at h; cases h
    · exact h
  · have hin : t ∈ s.readers := by
      by_cases hin : t ∈ s.readers
      · exact hin
      · simp [modeOf, hw, hin] at hm
    refine .inr ⟨?_, hin⟩
    rcases hi.excl with h | h
    · exact h
    · rw [h] at hin; simp at hin

/-- A step that concerns only goroutine `t`. -/
theorem LockInv.same {m' : Nat} {s' : LHub D T O R K A B E} {b' : LBoard T O E} (hi : LockInv I Lp J P L h0 Z m s b qs) (t : T) (q' : List (Option (List E))) (hm : m ≤ m')
    (h1 : s'.heap = s.heap) (h2 : s'.root = s.root) (h3 : s'.writer = s.writer) (h4 : s'.readers = s.readers) (h5 : ∀ u, u ≠ t → s'.th u = s.th u) (h6 : b'.board = b.board)
    (h7 : ∀ u, u ≠ t → b'.chans u = b.chans u) (h8 : s.inChange t → s'.inChange t)
    (h9 : ∃ base, LThInv I Lp J P L Z base (modeOf s.writer s.readers t) b.board.tree s.heap (s'.th t) (b'.chans t) q') :
    LockInv I Lp J P L h0 Z m' s' b' (fun u => if u = t then q' else qs u) := by
  refine ⟨h1 ▸ hi.ok, h1 ▸ hi.next, h1 ▸ hi.keep, by rw [h6, h3]; exact hi.writer, by rw [h6, h4]; exact hi.readers, by rw [h3, h4]; exact hi.excl, by rw [h4]; exact hi.nodup,
    by rw [h6]; exact Nat.le_trans hi.len hm, by rw [h3, h6]; exact hi.inv, ?_, fun u => ?_⟩
  · intro hq
    rw [h1, h2, h6]
    refine hi.obj fun u hu => ?_
    by_cases e : u = t
    · subst e; exact hq u (h8 hu)
    · refine hq u ?_
      unfold LHub.inChange at hu ⊢
      rw [h5 u e]; exact hu
  · rw [h1, h3, h4, h6]
    by_cases e : u = t
    · subst e; simpa using h9
    · simp only [if_neg e, h5 u e, h7 u e]
      exact hi.th u

/-- A step of goroutine `t` that takes or gives back the lock.  The others have the lock as before, or have none before and after. -/
theorem LockInv.locks {m' : Nat} {s' : LHub D T O R K A B E} {e : GEvent T O K A} (hi : LockInv I Lp J P L h0 Z m s b qs) (t : T) (hm : m ≤ m')
    (h1 : s'.heap = s.heap) (h2 : s'.root = s.root) (h5 : ∀ u, u ≠ t → s'.th u = s.th u) (ht : (b.board.step e).tree = b.board.tree)
    (hw : (b.board.step e).writer = s'.writer) (hr : (b.board.step e).readers = s'.readers) (hx : s'.writer = none ∨ s'.readers = []) (hn : s'.readers.Nodup)
    (hJ : s'.writer = none → J b.board.tree) (h8 : ¬ s.inChange t) (hu : ∀ u, u ≠ t → modeOf s'.writer s'.readers u = modeOf s.writer s.readers u)
    (h9 : ∃ base, LThInv I Lp J P L Z base (modeOf s'.writer s'.readers t) b.board.tree s.heap (s'.th t) (b.chans t) (qs t)) :
    LockInv I Lp J P L h0 Z m' s' (b.step (.plain e)) qs := by
  have ht' : (b.step (.plain e : LEvent T O K A E)).board.tree = b.board.tree := ht
  refine ⟨h1 ▸ hi.ok, h1 ▸ hi.next, h1 ▸ hi.keep, hw, hr, hx, hn, by rw [ht']; exact Nat.le_trans hi.len hm, by rw [ht']; exact hJ, ?_, fun u => ?_⟩
  · intro hq
    rw [h1, h2, ht']
    refine hi.obj fun u hu' => ?_
    by_cases e : u = t
    · subst e; exact h8 hu'
    · refine hq u ?_
      unfold LHub.inChange at hu' ⊢
      rw [h5 u e]; exact hu'
  · rw [h1, ht']
    by_cases e : u = t
    · subst e; exact h9
    · rw [h5 u e, hu u e]
      exact hi.th u

theorem lqs_same (qs : T → List (Option (List E))) (t : T) : (fun u => if u = t then qs t else qs u) = qs := by
  funext u
  by_cases e : u = t
  · subst e; simp
  · simp [e]

omit [DecidableEq T] in
theorem LChanInv.grow {base base' : Nat} {h h' : Heap D} {p : Proc (Cell D) B} {q : Option (List E)} (hc : LChanInv Lp base h p q) (ha : Above base h h') (hb : base ≤ base') :
    LChanInv Lp base' h' p q := by
  cases q with
  | none => exact hc
  | some es => exact ChanInv.above hc ha hb

end

/-- What the record needs to know of a step, and the invariant after it. -/
def Goes (I : OImpl D O R) (Lp : Loop D R B E) (J : List O → Prop) (P : K → List O → A → Prop) (L : List O → List E → Prop) (h0 : Heap D) (Z : Addr → Prop) (m' : Nat)
    (s s' : LHub D T O R K A B E) (b : LBoard T O E) : Prop :=
  ∃ qs' es, s'.log = s.log ++ es ∧ b.FitsAll P L es ∧ LockInv I Lp J P L h0 Z m' s' (b.replay es) qs'

section
variable {I : OImpl D O R} {Lp : Loop D R B E} {J : List O → Prop} {P : K → List O → A → Prop} {L : List O → List E → Prop} {h0 : Heap D} {Z : Addr → Prop} {m m' n : Nat}
  {s s' : LHub D T O R K A B E} {b : LBoard T O E} {qs : T → List (Option (List E))}

theorem LHub.to_self (s : LHub D T O R K A B E) (t : T) (ph : LPhase D O R K A E) : ((s.to t ph).th t) = ⟨ph, (s.th t).chans⟩ := by simp [LHub.to, LHub.put]
theorem LHub.to_other (s : LHub D T O R K A B E) {t u : T} (ph : LPhase D O R K A E) (h : u ≠ t) : ((s.to t ph).th u) = s.th u := by simp [LHub.to, LHub.put, h]
theorem LHub.put_self (s : LHub D T O R K A B E) (t : T) (g : LGor D O R K A B E) : ((s.put t g).th t) = g := by simp [LHub.put]
theorem LHub.put_other (s : LHub D T O R K A B E) {t u : T} (g : LGor D O R K A B E) (h : u ≠ t) : ((s.put t g).th u) = s.th u := by simp [LHub.put, h]

/-- One step of a goroutine. -/
theorem locked_act (hI : I.Lawful n) (Rd : K → R → Prog D A)
    (hR : ∀ k h r l F, l.length ≤ n → I.Obj h r l F → wp (fun _ => False) (Rd k r) (fun x h' => h' = h ∧ P k l x) h) (hL : Lp.Lawful I L n)
    (hm : m ≤ n) (hmm : m ≤ m') (hZ : ∀ a, h0.next ≤ a → Z a) (hi : LockInv I Lp J P L h0 Z m s b qs) (t : T)
    (hb : ∀ cow o c, (s.th t).phase = .idle (.change cow o c) → m < n) (he : ∀ cow o r c, (s.th t).phase = .changing cow o (.ret r) c → m < m') :
    Goes I Lp J P L h0 Z m' s (s.step I Rd Lp t) b := by
  have hnop : Goes I Lp J P L h0 Z m' s s b := ⟨qs, [], by simp, trivial, { hi with len := by have := hi.len; simp only [LBoard.replay]; omega }⟩
  obtain ⟨base, ht⟩ := hi.th t
  have hnc : ∀ g, (s.th t).phase = .idle g → ¬ s.inChange t := fun g hp => by simp [LHub.inChange, hp]
  unfold LHub.step
  split
  · exact hnop
  · -- lock
    rename_i c hp
    obtain ⟨t1, t2, t3, t4, t5⟩ := ht
    rw [hp] at t2 t4
    split
    · rename_i hfree
      refine ⟨qs, [.plain (.lock t)], rfl, ⟨⟨hi.writer.trans hfree.1, hi.readers.trans hfree.2⟩, trivial⟩,
        hi.locks (e := .lock t) t hmm rfl rfl (fun u hu => LHub.to_other s _ hu) rfl rfl hi.readers (.inr hfree.2) hi.nodup (by simp) (hnc _ hp) (fun u hu => ?_) ⟨base, ?_⟩⟩
      · have e' : ¬ t = u := fun h => hu h.symm
        simp [modeOf, LHub.note, LHub.to, LHub.put, hfree.1, hfree.2, e']
      · simp only [LHub.note, LHub.to_self, modeOf, if_true]
        exact ⟨t1, t2.2 _ (hi.inv hfree.1), by simp, t4, t5⟩
    · exact hnop
  · -- unlock
    rename_i c hp
    obtain ⟨t1, t2, t3, t4, t5⟩ := ht
    rw [hp] at t2 t4
    obtain ⟨a1, a2, a3, a4⟩ := t2
    have hw := modeOf_sole.1 a1
    have hr : s.readers = [] := by
      rcases hi.excl with h | h
      · rw [hw] at h; cases h
      · exact h
    refine ⟨qs, [.plain (.unlock t)], rfl, ⟨hi.writer.trans hw, trivial⟩,
      hi.locks (e := .unlock t) t hmm rfl rfl (fun u hu => LHub.to_other s _ hu) rfl rfl hi.readers (.inl rfl) hi.nodup (fun _ => a2) (hnc _ hp) (fun u hu => ?_) ⟨base, ?_⟩⟩
    · rw [hi.alone hw hu]
      simp [modeOf, LHub.note, LHub.to, LHub.put, hr]
    · have : modeOf (none : Option T) s.readers t = .free := by simp [modeOf, hr]
      show LThInv _ _ _ _ _ _ _ (modeOf (none : Option T) s.readers t) _ _ _ _ _
      rw [this]
      simp only [LHub.note, LHub.to_self]
      exact ⟨t1, LAct.Legal.any a4 _, fun _ => a3, t4, t5⟩
  · -- rlock
    rename_i c hp
    obtain ⟨t1, t2, t3, t4, t5⟩ := ht
    rw [hp] at t2 t4
    split
    · rename_i hfree
      have hnot : t ∉ s.readers := modeOf_free t2.1
      refine ⟨qs, [.plain (.rlock t)], rfl, ⟨hi.writer.trans hfree, trivial⟩,
        hi.locks (e := .rlock t) t hmm rfl rfl (fun u hu => LHub.to_other s _ hu) rfl hi.writer (by simp [GBoard.step, hi.readers]) (.inl hfree)
          (List.nodup_cons.2 ⟨hnot, hi.nodup⟩) hi.inv (hnc _ hp) (fun u hu => ?_) ⟨base, ?_⟩⟩
      · simp [modeOf, LHub.note, LHub.to, LHub.put, hfree, hu]
      · have : modeOf s.writer (t :: s.readers) t = .shared := by simp [modeOf, hfree]
        show LThInv _ _ _ _ _ _ _ (modeOf s.writer (t :: s.readers) t) _ _ _ _ _
        rw [this]
        simp only [LHub.note, LHub.to_self]
        exact ⟨t1, t2.2 _ (hi.inv hfree), by simp, t4, t5⟩
    · exact hnop
  · -- runlock
    rename_i c hp
    obtain ⟨t1, t2, t3, t4, t5⟩ := ht
    rw [hp] at t2 t4
    obtain ⟨a1, a3, a4⟩ := t2
    have hin := modeOf_shared a1
    have hw : s.writer = none := by
      rcases hi.excl with h | h
      · exact h
      · rw [h] at hin; simp at hin
    refine ⟨qs, [.plain (.runlock t)], rfl, ⟨⟨hi.writer.trans hw, by rw [hi.readers]; exact hin⟩, trivial⟩,
      hi.locks (e := .runlock t) t hmm rfl rfl (fun u hu => LHub.to_other s _ hu) rfl hi.writer (by simp [GBoard.step, hi.readers]) (.inl hw)
        (hi.nodup.erase t) hi.inv (hnc _ hp) (fun u hu => ?_) ⟨base, ?_⟩⟩
    · simp [modeOf, LHub.note, LHub.to, LHub.put, hw, List.mem_erase_of_ne hu]
    · have : t ∉ s.readers.erase t := fun h => (List.Nodup.mem_erase_iff hi.nodup).1 h |>.1 rfl
      have : modeOf s.writer (s.readers.erase t) t = .free := by simp [modeOf, hw, this]
      show LThInv _ _ _ _ _ _ _ (modeOf s.writer (s.readers.erase t) t) _ _ _ _ _
      rw [this]
      simp only [LHub.note, LHub.to_self]
      exact ⟨t1, LAct.Legal.any a4 _, fun _ => a3, t4, t5⟩
  · -- a change begins
    rename_i cow o c hp
    obtain ⟨t1, t2, t3, t4, t5⟩ := ht
    rw [hp] at t2 t4
    obtain ⟨a1, a2, a3⟩ := t2
    obtain ⟨F, f1, f2⟩ := hi.obj (hi.quiet (t := t) (by rw [a1]; simp) (hnc _ hp))
    refine ⟨_, [], by simp [LHub.to, LHub.put], trivial, hi.same t (qs t) hmm rfl rfl rfl rfl (fun u hu => LHub.to_other s _ hu) rfl (fun _ _ => rfl) (fun h => absurd h (hnc _ hp)) ⟨s.heap.next, ?_⟩⟩
    rw [LHub.to_self]
    have hlen := hi.len
    have := hb _ _ _ hp
    refine ⟨Nat.le_refl _, ⟨a1, a3, ?_, ?_⟩, t3, ⟨t4.1, fun ch p q h1 h2 => (t4.2 ch p q h1 h2).grow .rfl' t1⟩, t5⟩
    · cases cow with
      | true =>
        refine wp_mono (fun a ha => hZ a (by have := hi.next; omega)) ?_ (hI.cow_ok _ _ _ _ F (by omega) a2 f1)
        rintro r h' ⟨F', g1, g2⟩
        exact ⟨F', g1, fun x hx => (g2 x hx).elim (fun h => hZ x (by have := hi.next; omega)) (f2 x)⟩
      | false =>
        refine wp_mono (fun a ha => ha.elim (f2 a) fun h => hZ a (by have := hi.next; omega)) ?_ (hI.inp_ok _ _ _ _ F (by omega) a2.1 f1)
        rintro r h' ⟨F', g1, g2⟩
        exact ⟨F', g1, fun x hx => (g2 x hx).elim (fun h => hZ x (by have := hi.next; omega)) (f2 x)⟩
    · cases cow with
      | true => exact ⟨_, hI.cow_ok _ _ _ _ F (by omega) a2 f1⟩
      | false => exact a2.2
  · -- a read begins
    rename_i k c hp
    obtain ⟨t1, t2, t3, t4, t5⟩ := ht
    rw [hp] at t2 t4
    obtain ⟨a1, a2⟩ := t2
    obtain ⟨F, f1, f2⟩ := hi.obj (hi.quiet (t := t) a1 (hnc _ hp))
    refine ⟨_, [], by simp [LHub.to, LHub.put], trivial, hi.same t (qs t) hmm rfl rfl rfl rfl (fun u hu => LHub.to_other s _ hu) rfl (fun _ _ => rfl) (fun h => absurd h (hnc _ hp)) ⟨base, ?_⟩⟩
    rw [LHub.to_self]
    exact ⟨t1, ⟨a1, a2, hR _ _ _ _ F (by have := hi.len; omega) f1⟩, t3, t4, t5⟩
  · -- Enumerate
    rename_i c hp
    obtain ⟨t1, t2, t3, t4, t5⟩ := ht
    rw [hp] at t2 t4
    obtain ⟨a1, a2⟩ := t2
    obtain ⟨F, f1, f2⟩ := hi.obj (hi.quiet (t := t) a1 (hnc _ hp))
    obtain ⟨bs, es, k, o1, _, o3, o4, o5⟩ := hL.ok (by have := hi.len; omega) f1
    refine ⟨_, [.range t], rfl, ⟨hi.has a1, trivial⟩, hi.same t (qs t ++ [some es]) hmm rfl rfl rfl rfl (fun u hu => LHub.put_other s _ hu) rfl
      (fun u hu => by simp [LBoard.replay, LBoard.step, LBoard.setChans, hu]) (fun h => absurd h (hnc _ hp)) ⟨s.heap.next, ?_⟩⟩
    simp only [LHub.note, LHub.put_self, LBoard.replay, LBoard.step, LBoard.setChans, if_true]
    refine ⟨Nat.le_refl _, a2 es o3, fun h => absurd h a1, ⟨by simp [t4.1], fun ch p q h1 h2 => ?_⟩, ⟨by simp [t5.1], fun ch x q h1 h2 => ?_⟩⟩
    · have h2 : (qs t ++ [some es])[ch]? = some q := h2
      rcases getElem?_snoc h1 with ⟨b1, b2⟩ | ⟨b1, b2⟩ <;> rcases getElem?_snoc h2 with ⟨c1, c2⟩ | ⟨c1, c2⟩
      · exact (t4.2 ch p q b1 c1).grow .rfl' t1
      · have := t4.1; omega
      · have := t4.1; omega
      · subst b2 c2
        exact ⟨s.heap, pinOf id s.heap F, bs, k, ⟨hi.ok, Nat.le_refl _, fun _ _ => rfl⟩, Nat.le_refl _, pinOf_holds fun a ha => hI.lt f1 ha,
          by rw [Proc.Good]; exact ⟨[], 0, k, by simp [goods], o1, by omega⟩, o4, fun j b e' x y => o5 j b e' x y s.heap fun _ _ => rfl⟩
    · rcases getElem?_snoc h1 with ⟨b1, b2⟩ | ⟨b1, b2⟩ <;> rcases getElem?_snoc h2 with ⟨c1, c2⟩ | ⟨c1, c2⟩
      · exact t5.2 ch x q b1 c1
      · have := t5.1; omega
      · have := t5.1; omega
      · subst b2 c2
        simpa using o3
  · exact hnop
  · -- a change ends
    rename_i cow o r c hp
    obtain ⟨t1, t2, t3, t4, t5⟩ := ht
    rw [hp] at t2 t4
    obtain ⟨a1, a2, a3, _⟩ := t2
    have hw := modeOf_sole.1 a1
    have hr : s.readers = [] := by
      rcases hi.excl with h | h
      · rw [hw] at h; cases h
      · exact h
    refine ⟨qs, [.plain (.change t o)], rfl, ⟨⟨hi.writer.trans hw, hi.readers.trans hr⟩, trivial⟩, ⟨hi.ok, hi.next, hi.keep, hi.writer, hi.readers, hi.excl, hi.nodup, ?_, ?_, ?_, fun u => ?_⟩⟩
    · have := hi.len
      have := he _ _ _ _ hp
      simp only [LBoard.replay, LBoard.step, GBoard.step, List.length_cons]; omega
    · intro h
      have h : s.writer = none := h
      rw [hw] at h; cases h
    · intro _; exact a3
    · by_cases e : u = t
      · subst e
        refine ⟨base, ?_⟩
        simp only [LHub.note, LHub.to_self]
        show LThInv _ _ _ _ _ _ _ (modeOf s.writer s.readers u) (o :: b.board.tree) _ _ _ _
        rw [a1]
        exact ⟨t1, a2, by simp, t4, t5⟩
      · obtain ⟨base', g1⟩ := hi.th u
        refine ⟨0, ?_⟩
        simp only [LHub.note, LHub.to_other s _ e]
        show LThInv _ _ _ _ _ _ _ (modeOf s.writer s.readers u) (o :: b.board.tree) _ _ _ _
        rw [hi.alone hw e] at g1 ⊢
        exact g1.any _ _
  · -- a change goes on
    rename_i cow o p c hnr hp
    obtain ⟨t1, t2, t3, t4, t5⟩ := ht
    rw [hp] at t2 t4
    obtain ⟨a1, a2, a3, a4⟩ := t2
    have hw := modeOf_sole.1 a1
    cases hs : p.step s.heap with
    | none => exact hnop
    | some qh =>
      obtain ⟨q, h⟩ := qh
      obtain ⟨s1, _, _, s4, s5⟩ := step_solo a3 hs
      refine ⟨qs, [], by simp [LHub.to, LHub.put], trivial, ⟨step_ok hi.ok a3 hs, Nat.le_trans hi.next s4, ?_, hi.writer, hi.readers, hi.excl, hi.nodup, Nat.le_trans hi.len hmm, hi.inv, ?_, fun u => ?_⟩⟩
      · intro a ha hz
        show h.mem a = _
        rw [s5 a (by have := hi.next; omega) hz]
        exact hi.keep a ha hz
      · intro hq
        exact absurd (by simp [LHub.inChange, LHub.to, LHub.put]) (hq t)
      · by_cases e : u = t
        · subst e
          refine ⟨base, ?_⟩
          show LThInv _ _ _ _ _ _ _ (modeOf s.writer s.readers u) b.board.tree h ((s.to u _).th u) _ _
          rw [LHub.to_self, a1]
          cases cow with
          | true =>
            obtain ⟨G, g1⟩ := a4
            obtain ⟨r1, _, _, r4, r5⟩ := step_solo g1 hs
            have hab : Above base s.heap h := ⟨s4, fun a ha => r5 a (by omega) (by omega)⟩
            exact ⟨Nat.le_trans t1 s4, ⟨rfl, a2, s1, G, r1⟩, by simp, ⟨t4.1, fun ch p q h1 h2 => (t4.2 ch p q h1 h2).grow hab (Nat.le_refl _)⟩, t5⟩
          | false =>
            have a4 : ∀ q ∈ qs u, q = none := a4
            refine ⟨Nat.le_trans t1 s4, ⟨rfl, a2, s1, a4⟩, by simp, ⟨t4.1, fun ch p q h1 h2 => ?_⟩, t5⟩
            have h3 := t4.2 ch p q h1 h2
            have : q = none := a4 q (List.mem_of_getElem? h2)
            subst this
            exact h3
        · obtain ⟨base', g1⟩ := hi.th u
          refine ⟨0, ?_⟩
          show LThInv _ _ _ _ _ _ _ (modeOf s.writer s.readers u) b.board.tree h ((s.to t _).th u) _ _
          rw [LHub.to_other s _ e]
          rw [hi.alone hw e] at g1 ⊢
          exact g1.any _ _
  · -- a read ends
    rename_i k a c hp
    obtain ⟨t1, t2, t3, t4, t5⟩ := ht
    rw [hp] at t2 t4
    obtain ⟨a1, a2, _, a3⟩ := t2
    refine ⟨_, [.plain (.answer t k a)], rfl, ⟨⟨hi.has a1, a3⟩, trivial⟩, hi.same t (qs t) hmm rfl rfl rfl rfl (fun u hu => LHub.to_other s _ hu) rfl (fun _ _ => rfl)
      (fun h => by simp [LHub.inChange, hp] at h) ⟨base, ?_⟩⟩
    simp only [LHub.note, LHub.to_self]
    exact ⟨t1, a2 a a3, t3, t4, t5⟩
  · -- a read goes on
    rename_i k p c hnr hp
    obtain ⟨t1, t2, t3, t4, t5⟩ := ht
    rw [hp] at t2 t4
    obtain ⟨a1, a2, a3⟩ := t2
    rcases read_next a3 with ⟨x, rfl, _⟩ | ⟨a, kk, c0, rfl, r1, r2⟩
    · exact absurd rfl (hnr x)
    · simp only [Prog.step, r1]
      refine ⟨_, [], by simp [LHub.to, LHub.put], trivial, hi.same t (qs t) hmm rfl rfl rfl rfl (fun u hu => LHub.to_other s _ hu) rfl (fun _ _ => rfl)
        (fun h => by simp [LHub.inChange, hp] at h) ⟨base, ?_⟩⟩
      show LThInv _ _ _ _ _ _ _ _ _ _ ((s.to t _).th t) _ _
      rw [LHub.to_self]
      exact ⟨t1, ⟨a1, a2, r2⟩, t3, t4, t5⟩
  · -- a value has been read off
    rename_i ch x c hp
    obtain ⟨t1, t2, t3, t4, t5⟩ := ht
    rw [hp] at t2 t4
    obtain ⟨a1, v, es, hs, q1, q2, q3, q4, _, q5⟩ := t2
    subst q5
    have hbe : (LPhase.taking ch (.ret x) c : LPhase D O R K A E).behind (qs t) = (qs t).set ch (some es) := by simp [LPhase.behind, q1]
    rw [hbe] at t4
    obtain ⟨y, hy⟩ : ∃ y, (b.chans t)[ch]? = some y := by
      have := (List.getElem?_eq_some_iff.1 q1).1
      exact ⟨_, List.getElem?_eq_getElem (by rw [t5.1]; exact this)⟩
    have hLy := t5.2 ch y _ hy q1
    simp only [Option.getD_some] at hLy
    refine ⟨_, [.got t ch (some x)], rfl, ⟨⟨hi.has a1, y.1, y.2, es, hy, by simpa using hLy, by simp⟩, trivial⟩,
      hi.same t ((qs t).set ch (some es)) hmm rfl rfl rfl rfl (fun u hu => LHub.to_other s _ hu) rfl (fun u hu => by simp [LBoard.replay, LBoard.step, LBoard.setChans, hu])
      (fun h => by simp [LHub.inChange, hp] at h) ⟨base, ?_⟩⟩
    simp only [LHub.note, LHub.to_self, LBoard.replay, LBoard.step, LBoard.setChans, if_true, hy]
    refine ⟨t1, q2, fun h => absurd h a1, t4.imp (by simp) id, ⟨by simp [t5.1], fun ch' x' q h1 h2 => ?_⟩⟩
    by_cases ec : ch' = ch
    · subst ec
      rw [List.getElem?_set_self (List.getElem?_eq_some_iff.1 hy).1] at h1
      rw [List.getElem?_set_self (List.getElem?_eq_some_iff.1 q1).1] at h2
      cases h1; cases h2
      simpa using hLy
    · rw [List.getElem?_set_ne (Ne.symm ec)] at h1 h2
      exact t5.2 ch' x' q h1 h2
  · -- a value is being read off
    rename_i ch p c hnr hp
    obtain ⟨t1, t2, t3, t4, t5⟩ := ht
    rw [hp] at t2 t4
    obtain ⟨a1, v, es, hs, q1, q2, q3, q4, q5⟩ := t2
    rcases read_next q5 with ⟨x, rfl, _⟩ | ⟨a, kk, c0, rfl, r1, r2⟩
    · exact absurd rfl (hnr x)
    · have em : s.heap.mem a = some c0 := by rw [q3.mem a (q3.ok.lt r1), r1]
      simp only [Prog.step, em]
      refine ⟨_, [], by simp [LHub.to, LHub.put], trivial, hi.same t (qs t) hmm rfl rfl rfl rfl (fun u hu => LHub.to_other s _ hu) rfl (fun _ _ => rfl)
        (fun h => by simp [LHub.inChange, hp] at h) ⟨base, ?_⟩⟩
      show LThInv _ _ _ _ _ _ _ _ _ _ ((s.to t _).th t) _ _
      rw [LHub.to_self]
      exact ⟨t1, ⟨a1, v, es, hs, q1, q2, q3, q4, r2⟩, t3, t4, t5⟩

/-- One step of the whole. -/
theorem locked_step (hI : I.Lawful n) (Rd : K → R → Prog D A)
    (hR : ∀ k h r l F, l.length ≤ n → I.Obj h r l F → wp (fun _ => False) (Rd k r) (fun x h' => h' = h ∧ P k l x) h) (hL : Lp.Lawful I L n)
    (hm : m ≤ n) (hmm : m ≤ m') (hZ : ∀ a, h0.next ≤ a → Z a) (hi : LockInv I Lp J P L h0 Z m s b qs) (st : LStep I Rd Lp s s')
    (hb : ∀ t cow o c, (s.th t).phase = .idle (.change cow o c) → s' = s.step I Rd Lp t → m < n)
    (he : ∀ t cow o r c, (s.th t).phase = .changing cow o (.ret r) c → s' = s.step I Rd Lp t → m < m') :
    Goes I Lp J P L h0 Z m' s s' b := by
  cases st with
  | act t => exact locked_act hI Rd hR hL hm hmm hZ hi t (fun cow o c e => hb t cow o c e rfl) (fun cow o r c e => he t cow o r c e rfl)
  | @walk t ch p p' hp st =>
    obtain ⟨base, t1, t2, t3, t4, t5⟩ := hi.th t
    refine ⟨_, [], by simp [LHub.put], trivial, hi.same t (qs t) hmm rfl rfl rfl rfl (fun u hu => LHub.put_other s _ hu) rfl (fun _ _ => rfl)
      (fun h => by unfold LHub.inChange at h ⊢; rw [LHub.put_self]; exact h) ⟨base, ?_⟩⟩
    rw [LHub.put_self]
    refine ⟨t1, t2, t3, ⟨by simp [t4.1], fun ch' p1 q h1 h2 => ?_⟩, t5⟩
    by_cases ec : ch' = ch
    · subst ec
      rw [List.getElem?_set_self (List.getElem?_eq_some_iff.1 hp).1] at h1
      cases h1
      have h3 := t4.2 ch' p q hp h2
      cases q with
      | none => exact absurd h3 st.not_over
      | some es => exact ChanInv.walk h3 st
    · rw [List.getElem?_set_ne (Ne.symm ec)] at h1
      exact t4.2 ch' p1 q h1 h2
  | @recv t ch c p p' bv e hp st =>
    obtain ⟨base, t1, t2, t3, t4, t5⟩ := hi.th t
    rw [e] at t2 t4
    rw [LPhaseInv, LAct.Legal] at t2
    obtain ⟨a1, a2⟩ := t2
    have hlt : ch < (qs t).length := by rw [← t4.1]; exact (List.getElem?_eq_some_iff.1 hp).1
    have hq : (qs t)[ch]? = some ((qs t)[ch]) := List.getElem?_eq_getElem hlt
    generalize (qs t)[ch] = q0 at hq
    have h3 := t4.2 ch p q0 hp hq
    cases q0 with
    | none => exact absurd h3 st.not_over
    | some es0 =>
      obtain ⟨v, es, hs, rfl, c1, c2, c3, c4⟩ := ChanInv.recv h3 st
      rw [hq] at a2
      refine ⟨_, [], by simp [LHub.put], trivial, hi.same t (qs t) hmm rfl rfl rfl rfl (fun u hu => LHub.put_other s _ hu) rfl (fun _ _ => rfl)
        (fun h => by simp [LHub.inChange, e] at h) ⟨base, ?_⟩⟩
      rw [LHub.put_self]
      have hbe : (LPhase.taking ch (Lp.item bv) c : LPhase D O R K A E).behind (qs t) = (qs t).set ch (some es) := by simp [LPhase.behind, hq]
      refine ⟨t1, ⟨a1, v, es, hs, hq, a2, c2, c3, c4⟩, t3, ⟨by simp [t4.1], fun ch' p1 q h1 h2 => ?_⟩, t5⟩
      rw [hbe] at h2
      by_cases ec : ch' = ch
      · subst ec
        rw [List.getElem?_set_self (List.getElem?_eq_some_iff.1 hp).1] at h1
        rw [List.getElem?_set_self hlt] at h2
        cases h1; cases h2
        exact c1
      · rw [List.getElem?_set_ne (Ne.symm ec)] at h1 h2
        exact t4.2 ch' p1 q h1 h2
  | @closed t ch c ks e hp =>
    obtain ⟨base, t1, t2, t3, t4, t5⟩ := hi.th t
    rw [e] at t2 t4
    rw [LPhaseInv, LAct.Legal] at t2
    obtain ⟨a1, a2⟩ := t2
    have hlt : ch < (qs t).length := by rw [← t4.1]; exact (List.getElem?_eq_some_iff.1 hp).1
    have hq : (qs t)[ch]? = some ((qs t)[ch]) := List.getElem?_eq_getElem hlt
    generalize (qs t)[ch] = q0 at hq
    have h3 := t4.2 ch _ q0 hp hq
    have key : q0.getD [] = [] ∧ (Proc.mk .done ks : Proc (Cell D) B).Over ∧ (c none).Legal J I.cowOk I.inpOk P L (modeOf s.writer s.readers t) b.board.tree ((qs t).set ch none) := by
      cases q0 with
      | none => rw [hq] at a2; exact ⟨rfl, h3, a2⟩
      | some es0 =>
        obtain ⟨hs, pin, bs, k, _, _, _, d4, d5, _⟩ := h3
        obtain ⟨rfl, _, d6⟩ := good_done d4
        have : es0 = [] := List.eq_nil_of_length_eq_zero (by simpa using d5.symm)
        subst this
        rw [hq] at a2
        exact ⟨rfl, d6, a2⟩
    obtain ⟨k1, k2, k3⟩ := key
    obtain ⟨y, hy⟩ : ∃ y, (b.chans t)[ch]? = some y := ⟨_, List.getElem?_eq_getElem (by rw [t5.1]; exact hlt)⟩
    have hLy := t5.2 ch y _ hy hq
    rw [k1] at hLy
    refine ⟨_, [.got t ch none], rfl, ⟨⟨hi.has a1, y.1, y.2, [], hy, by simpa using hLy, fun _ => rfl⟩, trivial⟩,
      hi.same t ((qs t).set ch none) hmm rfl rfl rfl rfl (fun u hu => LHub.to_other s _ hu) rfl (fun u hu => by simp [LBoard.replay, LBoard.step, LBoard.setChans, hu])
      (fun h => by simp [LHub.inChange, e] at h) ⟨base, ?_⟩⟩
    have hsy : (b.chans t).set ch (y.1, y.2 ++ []) = b.chans t := by
      rw [List.append_nil]; exact set_same hy
    simp only [LHub.note, LHub.to_self, LBoard.replay, LBoard.step, LBoard.setChans, if_true, hy, Option.toList_none, hsy]
    refine ⟨t1, k3, fun h => absurd h a1, ⟨by simp [t4.1], fun ch' p1 q h1 h2 => ?_⟩, ⟨by simp [t5.1], fun ch' x' q h1 h2 => ?_⟩⟩
    · have h2 : ((qs t).set ch none)[ch']? = some q := h2
      by_cases ec : ch' = ch
      · subst ec
        rw [hp] at h1
        rw [List.getElem?_set_self hlt] at h2
        cases h1; cases h2
        exact k2
      · rw [List.getElem?_set_ne (Ne.symm ec)] at h2
        exact t4.2 ch' p1 q h1 h2
    · by_cases ec : ch' = ch
      · subst ec
        rw [hy] at h1
        rw [List.getElem?_set_self hlt] at h2
        cases h1; cases h2
        exact hLy
      · rw [List.getElem?_set_ne (Ne.symm ec)] at h2
        exact t5.2 ch' x' q h1 h2

end
end Verif.Pipe
