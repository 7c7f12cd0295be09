import Verif.Heap.Publish
import Verif.Spec.Guard

/-!
# Goroutines sharing a tree under a read-write lock

One tree is held in a variable guarded by a `sync.RWMutex`.  Goroutines that have the lock for writing change the tree in place or replace it by a copy-on-write
version of itself; those that have it for reading (or writing) read it.  Taking and giving back the lock and every access to a node are single steps; a
schedule says whose step comes next.  A lock for reading is granted whenever nobody has the lock for writing (Go makes new readers wait for a
waiting writer; that only takes schedules away).
-/

namespace Verif.Heap
open Prog
variable {D T O R K A : Type}

/-- What a goroutine does.  It may decide by the answers it gets.  `change true o` is a copy-on-write call whose result replaces the tree, `change false o` an
in-place call. -/
inductive GAct (O K A : Type) where
  | done
  | lock (c : GAct O K A)
  | unlock (c : GAct O K A)
  | rlock (c : GAct O K A)
  | runlock (c : GAct O K A)
  | change (cow : Bool) (o : O) (c : GAct O K A)
  | read (k : K) (c : A → GAct O K A)

/-- Event `e` takes goroutine `t` from the first to the second. -/
def GAct.On (t : T) : GAct O K A → GEvent T O K A → GAct O K A → Prop
  | .done, _, _ => False
  | .lock c, e, g => e = .lock t ∧ g = c
  | .unlock c, e, g => e = .unlock t ∧ g = c
  | .rlock c, e, g => e = .rlock t ∧ g = c
  | .runlock c, e, g => e = .runlock t ∧ g = c
  | .change _ o c, e, g => e = .change t o ∧ g = c
  | .read k c, e, g => ∃ x, e = .answer t k x ∧ g = c x

/-- Where a goroutine is: between actions, within a change, or within a read. -/
inductive GPhase (D O R K A : Type) where
  | idle (g : GAct O K A)
  | changing (cow : Bool) (o : O) (p : Prog D R) (g : GAct O K A)
  | reading (k : K) (p : Prog D A) (c : A → GAct O K A)

/-- Memory, the tree, the lock, the goroutines, and the record of events. -/
structure Guard (D T O R K A : Type) where
  heap : Heap D
  root : R
  writer : Option T
  readers : List T
  th : T → GPhase D O R K A
  log : List (GEvent T O K A)

/-- What a goroutine has before it. -/
def GPhase.todo : GPhase D O R K A → GAct O K A
  | .idle g => g
  | .changing cow o _ g => .change cow o g
  | .reading k _ c => .read k c

variable [DecidableEq T]

/-- The record takes the goroutines from `act` to `gs`: each goroutine did one thing after the other as `act` says, and `gs` is what is left. -/
inductive GFollows (act : T → GAct O K A) : List (GEvent T O K A) → (T → GAct O K A) → Prop where
  | nil : GFollows act [] act
  | snoc {log gs e t g} : GFollows act log gs → (gs t).On t e g → GFollows act (log ++ [e]) (fun u => if u = t then g else gs u)

def Guard.put (s : Guard D T O R K A) (t : T) (g : GPhase D O R K A) : Guard D T O R K A := { s with th := fun u => if u = t then g else s.th u }
def Guard.note (s : Guard D T O R K A) (e : GEvent T O K A) : Guard D T O R K A := { s with log := s.log ++ [e] }

/-- One step of goroutine `t`.  It lets its turn pass if it has ended, has failed, or waits for the lock. -/
def Guard.step (I : OImpl D O R) (Rd : K → R → Prog D A) (s : Guard D T O R K A) (t : T) : Guard D T O R K A :=
  match s.th t with
  | .idle .done => s
  | .idle (.lock c) => if s.writer = none ∧ s.readers = [] then { (s.put t (.idle c)).note (.lock t) with writer := some t } else s
  | .idle (.unlock c) => { (s.put t (.idle c)).note (.unlock t) with writer := none }
  | .idle (.rlock c) => if s.writer = none then { (s.put t (.idle c)).note (.rlock t) with readers := t :: s.readers } else s
  | .idle (.runlock c) => { (s.put t (.idle c)).note (.runlock t) with readers := s.readers.erase t }
  | .idle (.change cow o c) => s.put t (.changing cow o (if cow then I.cow o s.root else I.inp o s.root) c)
  | .idle (.read k c) => s.put t (.reading k (Rd k s.root) c)
  | .changing _ o (.ret r) c => { (s.put t (.idle c)).note (.change t o) with root := r }
  | .changing cow o p c => match p.step s.heap with
    | none => s
    | some (q, h) => { s.put t (.changing cow o q c) with heap := h }
  | .reading k (.ret a) c => (s.put t (.idle (c a))).note (.answer t k a)
  | .reading k p c => match p.step s.heap with
    | none => s
    | some (q, h) => { s.put t (.reading k q c) with heap := h }

/-- A schedule. -/
def Guard.exec (I : OImpl D O R) (Rd : K → R → Prog D A) (s : Guard D T O R K A) : List T → Guard D T O R K A
  | [] => s
  | t :: ts => (s.step I Rd t).exec I Rd ts

omit [DecidableEq T] in
/-- The start: nobody has the lock. -/
def Guard.start (h : Heap D) (r : R) (act : T → GAct O K A) : Guard D T O R K A := ⟨h, r, none, [], fun t => .idle (act t), []⟩

omit [DecidableEq T] in
/-- The node goroutine `t` writes in its next step. -/
def Guard.writes (s : Guard D T O R K A) (t : T) : Option Nat := match s.th t with
  | .idle _ => none
  | .changing _ _ p _ => p.writes
  | .reading _ p _ => p.writes

omit [DecidableEq T] in
/-- The node goroutine `t` reads or writes in its next step. -/
def Guard.touches (s : Guard D T O R K A) (t : T) : Option Nat := match s.th t with
  | .idle _ => none
  | .changing _ _ p _ => p.touches
  | .reading _ p _ => p.touches

omit [DecidableEq T] in
/-- Goroutine `t` has failed (a panic, or the loop bound of the model used up). -/
def Guard.failed (s : Guard D T O R K A) (t : T) : Prop := match s.th t with
  | .idle _ => False
  | .changing _ _ p _ => ∃ e, p = .stop e
  | .reading _ p _ => ∃ e, p = .stop e

omit [DecidableEq T] in
/-- Goroutine `t` is in the middle of a change. -/
def Guard.inChange (s : Guard D T O R K A) (t : T) : Prop := match s.th t with
  | .changing _ _ _ _ => True
  | _ => False

omit [DecidableEq T] in
/-- Goroutine `t` has something to do and does not wait. -/
def Guard.ready (s : Guard D T O R K A) (t : T) : Prop := match s.th t with
  | .idle .done => False
  | .idle (.lock _) => s.writer = none ∧ s.readers = []
  | .idle (.rlock _) => s.writer = none
  | _ => True

omit [DecidableEq T] in
/-- Goroutine `t` has come to its end. -/
def Guard.ended (s : Guard D T O R K A) (t : T) : Prop := s.th t = .idle .done

/-- Without the lock, with the lock for reading, with the lock for writing. -/
inductive Mode where
  | free
  | shared
  | sole
  deriving DecidableEq

/-- What goroutines may do.  `l`: the tree, while it has the lock.  Whoever has the lock for writing may assume `J` of the tree when it takes the lock and has
to leave it so; changes need the lock for writing and have to be covered calls, questions need the lock; the lock is given back in the end and not taken twice. -/
def GAct.Legal (J : List O → Prop) (cok iok : List O → O → Prop) (P : K → List O → A → Prop) : GAct O K A → Mode → List O → Prop
  | .done, m, _ => m = .free
  | .lock c, m, _ => m = .free ∧ ∀ l, J l → c.Legal J cok iok P .sole l
  | .unlock c, m, l => m = .sole ∧ J l ∧ c.Legal J cok iok P .free []
  | .rlock c, m, _ => m = .free ∧ ∀ l, J l → c.Legal J cok iok P .shared l
  | .runlock c, m, _ => m = .shared ∧ c.Legal J cok iok P .free []
  | .change cow o c, m, l => m = .sole ∧ (if cow then cok l o else iok l o) ∧ c.Legal J cok iok P .sole (o :: l)
  | .read k c, m, l => m ≠ .free ∧ ∀ a, P k l a → (c a).Legal J cok iok P m l

omit [DecidableEq T] in
theorem GAct.Legal.any {J : List O → Prop} {cok iok : List O → O → Prop} {P : K → List O → A → Prop} {g : GAct O K A} {l : List O} (h : g.Legal J cok iok P .free l) (l' : List O) :
    g.Legal J cok iok P .free l' := by
  cases g with
  | done => exact h
  | lock c => exact h
  | rlock c => exact h
  | unlock c => cases h.1
  | runlock c => cases h.1
  | change b o c => cases h.1
  | read k c => exact absurd rfl h.1

/-! ## Invariant -/

/-- One goroutine.  `Z`: the nodes the shared tree may consist of. -/
def GThInv (I : OImpl D O R) (J : List O → Prop) (P : K → List O → A → Prop) (Z : Addr → Prop) (m : Mode) (l : List O) (h : Heap D) : GPhase D O R K A → Prop
  | .idle c => c.Legal J I.cowOk I.inpOk P m l
  | .changing _ o p c => m = .sole ∧ c.Legal J I.cowOk I.inpOk P .sole (o :: l) ∧ wp Z p (fun r h' => ∃ F, I.Obj h' r (o :: l) F ∧ ∀ x, F x → Z x) h
  | .reading k p c => m ≠ .free ∧ (∀ a, P k l a → (c a).Legal J I.cowOk I.inpOk P m l) ∧ wp (fun _ => False) p (fun x h' => h' = h ∧ P k l x) h

omit [DecidableEq T] in
/-- Who has no lock does not mind what happens. -/
theorem GThInv.any {I : OImpl D O R} {J : List O → Prop} {P : K → List O → A → Prop} {Z : Addr → Prop} {l : List O} {h : Heap D} {g : GPhase D O R K A}
    (hg : GThInv I J P Z .free l h g) (l' : List O) (h' : Heap D) : GThInv I J P Z .free l' h' g := by
  cases g with
  | idle c => exact GAct.Legal.any hg l'
  | changing b o p c => cases hg.1
  | reading k p c => exact absurd rfl hg.1

/-- Which lock goroutine `t` has. -/
def modeOf (w : Option T) (rs : List T) (t : T) : Mode := if w = some t then .sole else if t ∈ rs then .shared else .free

/-- All of it.  `h0`: the memory at the start, `Z`: the nodes of the shared tree then and all nodes made since. -/
structure GuardInv (I : OImpl D O R) (J : List O → Prop) (P : K → List O → A → Prop) (h0 : Heap D) (Z : Addr → Prop) (m : Nat) (s : Guard D T O R K A) (b : GBoard T O) : Prop where
  ok : s.heap.Ok
  next : h0.next ≤ s.heap.next
  keep : ∀ a, a < h0.next → ¬ Z a → s.heap.mem a = h0.mem a
  writer : b.writer = s.writer
  readers : b.readers = s.readers
  excl : s.writer = none ∨ s.readers = []
  nodup : s.readers.Nodup
  len : b.tree.length ≤ m
  inv : s.writer = none → J b.tree
  obj : (∀ t, ¬ s.inChange t) → ∃ F, I.Obj s.heap s.root b.tree F ∧ ∀ x, F x → Z x
  th : ∀ t, GThInv I J P Z (modeOf s.writer s.readers t) b.tree s.heap (s.th t)

omit [DecidableEq T] in
/-- A step of a program keeps memory in order. -/
theorem step_ok {α : Type} {W : Addr → Prop} {Q : α → Heap D → Prop} {p q : Prog D α} {h h' : Heap D} (hk : h.Ok) (hw : wp W p Q h) (hs : p.step h = some (q, h')) : h'.Ok := by
  cases p with
  | ret x => cases hs
  | stop e => cases hs
  | read a k =>
    obtain ⟨c, h1, h2⟩ := hw
    simp only [Prog.step, h1, Option.some.injEq, Prod.mk.injEq] at hs
    obtain ⟨rfl, rfl⟩ := hs; exact hk
  | write a c k =>
    obtain ⟨_, ⟨c0, hc⟩, _⟩ := hw
    simp only [Prog.step, Option.some.injEq, Prod.mk.injEq] at hs
    obtain ⟨rfl, rfl⟩ := hs; exact hk.put hc c
  | alloc c k =>
    simp only [Prog.step, Option.some.injEq, Prod.mk.injEq] at hs
    obtain ⟨rfl, rfl⟩ := hs; exact hk.push c

/-- While somebody changes the tree all others are without the lock. -/
theorem GuardInv.alone {I : OImpl D O R} {J : List O → Prop} {P : K → List O → A → Prop} {h0 : Heap D} {Z : Addr → Prop} {m : Nat} {s : Guard D T O R K A} {b : GBoard T O}
    (hi : GuardInv I J P h0 Z m s b) {t u : T} (hw : s.writer = some t) (hne : u ≠ t) : modeOf s.writer s.readers u = .free := by
  have hr : s.readers = [] := by
    rcases hi.excl with h | h
    · rw [hw] at h; cases h
    · exact h
  have : ¬ t = u := fun h => hne h.symm
  simp [modeOf, hw, hr, this]

theorem modeOf_sole {w : Option T} {rs : List T} {t : T} : modeOf w rs t = .sole ↔ w = some t := by
  unfold modeOf
  split
  · simp [*]
  · split <;> simp [*]

theorem modeOf_shared {w : Option T} {rs : List T} {t : T} (h : modeOf w rs t = .shared) : t ∈ rs := by
  unfold modeOf at h
  split at h
  · cases h
  · split at h
    · assumption
    · cases h

theorem modeOf_free {w : Option T} {rs : List T} {t : T} (h : modeOf w rs t = .free) : t ∉ rs := by
  unfold modeOf at h
  split at h
  · cases h
  · split at h
    · cases h
    · assumption

omit [DecidableEq T] in
theorem inChange_iff {s : Guard D T O R K A} {t : T} : s.inChange t ↔ ∃ b o p c, s.th t = .changing b o p c := by
  unfold Guard.inChange
  split
  · rename_i o p c h; simp [h]
  · rename_i h
    constructor
    · exact False.elim
    · rintro ⟨b, o, p, c, e⟩; exact h b o p c e

/-- If nobody but `t` could be changing the tree and `t` is not, nobody is. -/
theorem GuardInv.quiet {I : OImpl D O R} {J : List O → Prop} {P : K → List O → A → Prop} {h0 : Heap D} {Z : Addr → Prop} {m : Nat} {s : Guard D T O R K A} {b : GBoard T O}
    (hi : GuardInv I J P h0 Z m s b) {t : T} (hm : modeOf s.writer s.readers t ≠ .free) (ht : ¬ s.inChange t) : ∀ u, ¬ s.inChange u := by
  intro u hu
  obtain ⟨_, o, p, c, e⟩ := inChange_iff.1 hu
  have h1 := hi.th u
  rw [e] at h1
  have hw := modeOf_sole.1 h1.1
  by_cases htu : t = u
  · subst htu; exact ht hu
  · exact hm (hi.alone hw htu)

/-- One step.  `m` bounds the length of the chain; it has to grow only when a change ends. -/
theorem guard_step {I : OImpl D O R} {J : List O → Prop} {n m m' : Nat} (hI : I.Lawful n) (Rd : K → R → Prog D A) (P : K → List O → A → Prop)
    (hR : ∀ k h r l F, l.length ≤ n → I.Obj h r l F → wp (fun _ => False) (Rd k r) (fun x h' => h' = h ∧ P k l x) h)
    (hm : m ≤ n) (hmm : m ≤ m') {h0 : Heap D} {Z : Addr → Prop} (hZ : ∀ a, h0.next ≤ a → Z a) {s : Guard D T O R K A} {b : GBoard T O} (hi : GuardInv I J P h0 Z m s b) (t : T)
    (hb : ∀ cow o c, s.th t = .idle (.change cow o c) → m < n) (he : ∀ cow o r c, s.th t = .changing cow o (.ret r) c → m < m') :
    ∃ es, (s.step I Rd t).log = s.log ++ es ∧ b.FitsAll P es ∧ GuardInv I J P h0 Z m' (s.step I Rd t) (b.replay es) := by
  have hnop : GuardInv I J P h0 Z m' s b := { hi with len := by have := hi.len; omega }
  have ht := hi.th t
  unfold Guard.step
  split
  · exact ⟨[], by simp, trivial, hnop⟩
  · -- lock
    rename_i c hp
    rw [hp] at ht
    split
    · rename_i hfree
      refine ⟨[.lock t], rfl, ⟨⟨hi.writer.trans hfree.1, hi.readers.trans hfree.2⟩, trivial⟩, ⟨hi.ok, hi.next, hi.keep, rfl, hi.readers, .inr hfree.2, hi.nodup,
        hnop.len, (by simp), ?_, fun u => ?_⟩⟩
      · intro hq
        refine hi.obj fun u hu => ?_
        by_cases e : u = t
        · subst e; simp [Guard.inChange, hp] at hu
        · exact hq u (by simpa [Guard.inChange, Guard.note, Guard.put, e] using hu)
      · by_cases e : u = t
        · subst e
          simp only [Guard.note, Guard.put, modeOf, if_true]
          exact ht.2 _ (hi.inv hfree.1)
        · have h1 := hi.th u
          have e' : ¬ t = u := fun h => e h.symm
          simp only [modeOf, hfree.1, hfree.2, reduceCtorEq, if_false, List.not_mem_nil] at h1
          simp only [Guard.note, Guard.put, e, if_false, modeOf, hfree.2, Option.some.injEq, e', List.not_mem_nil]
          exact h1
    · exact ⟨[], by simp, trivial, hnop⟩
  · -- unlock
    rename_i c hp
    rw [hp] at ht
    obtain ⟨h1, h2, h3⟩ := ht
    have hw := modeOf_sole.1 h1
    have hr : s.readers = [] := by
      rcases hi.excl with h | h
      · rw [hw] at h; cases h
      · exact h
    refine ⟨[.unlock t], rfl, ⟨hi.writer.trans hw, trivial⟩, ⟨hi.ok, hi.next, hi.keep, rfl, hi.readers, .inl rfl, hi.nodup,
      hnop.len, (fun _ => h2), ?_, fun u => ?_⟩⟩
    · intro hq
      refine hi.obj fun u hu => ?_
      by_cases e : u = t
      · subst e; simp [Guard.inChange, hp] at hu
      · exact hq u (by simpa [Guard.inChange, Guard.note, Guard.put, e] using hu)
    · by_cases e : u = t
      · subst e
        simp only [Guard.note, Guard.put, modeOf, hr, if_true, reduceCtorEq, if_false, List.not_mem_nil]
        exact GAct.Legal.any h3 _
      · have g1 := hi.th u
        rw [hi.alone hw e] at g1
        simp only [Guard.note, Guard.put, e, if_false, modeOf, hr, reduceCtorEq, List.not_mem_nil]
        exact g1
  · -- rlock
    rename_i c hp
    rw [hp] at ht
    split
    · rename_i hfree
      have hnot : t ∉ s.readers := modeOf_free ht.1
      refine ⟨[.rlock t], rfl, ⟨hi.writer.trans hfree, trivial⟩, ⟨hi.ok, hi.next, hi.keep, hi.writer, by simp [GBoard.replay, GBoard.step, hi.readers], .inl hfree, ?_,
        hnop.len, hi.inv, ?_, fun u => ?_⟩⟩
      · exact List.nodup_cons.2 ⟨hnot, hi.nodup⟩
      · intro hq
        refine hi.obj fun u hu => ?_
        by_cases e : u = t
        · subst e; simp [Guard.inChange, hp] at hu
        · exact hq u (by simpa [Guard.inChange, Guard.note, Guard.put, e] using hu)
      · by_cases e : u = t
        · subst e
          simp only [Guard.note, Guard.put, modeOf, hfree, reduceCtorEq, if_false, List.mem_cons, true_or, if_true]
          exact ht.2 _ (hi.inv hfree)
        · have h1 := hi.th u
          simp only [modeOf, hfree, reduceCtorEq, if_false] at h1
          simp only [Guard.note, Guard.put, e, if_false, modeOf, hfree, reduceCtorEq, List.mem_cons, false_or]
          exact h1
    · exact ⟨[], by simp, trivial, hnop⟩
  · -- runlock
    rename_i c hp
    rw [hp] at ht
    obtain ⟨h1, h2⟩ := ht
    have hin := modeOf_shared h1
    have hw : s.writer = none := by
      rcases hi.excl with h | h
      · exact h
      · rw [h] at hin; simp at hin
    refine ⟨[.runlock t], rfl, ⟨⟨hi.writer.trans hw, by rw [hi.readers]; exact hin⟩, trivial⟩, ⟨hi.ok, hi.next, hi.keep, hi.writer,
      by simp [GBoard.replay, GBoard.step, hi.readers], .inl hw, hi.nodup.erase t,
      hnop.len, hi.inv, ?_, fun u => ?_⟩⟩
    · intro hq
      refine hi.obj fun u hu => ?_
      by_cases e : u = t
      · subst e; simp [Guard.inChange, hp] at hu
      · exact hq u (by simpa [Guard.inChange, Guard.note, Guard.put, e] using hu)
    · by_cases e : u = t
      · subst e
        have : u ∉ s.readers.erase u := fun h => (List.Nodup.mem_erase_iff hi.nodup).1 h |>.1 rfl
        simp only [Guard.note, Guard.put, modeOf, hw, if_true, reduceCtorEq, if_false, this]
        exact GAct.Legal.any h2 _
      · have h1 := hi.th u
        simp only [modeOf, hw, reduceCtorEq, if_false] at h1
        simp only [Guard.note, Guard.put, e, if_false, modeOf, hw, reduceCtorEq, List.mem_erase_of_ne e]
        exact h1
  · -- a change begins
    rename_i cow o c hp
    have hmode := ht
    rw [hp] at ht hmode
    obtain ⟨h1, h2, h3⟩ := ht
    have hw := modeOf_sole.1 h1
    obtain ⟨F, f1, f2⟩ := hi.obj (hi.quiet (t := t) (by rw [h1]; simp) (by simp [Guard.inChange, hp]))
    refine ⟨[], by simp [Guard.put], trivial, ⟨hi.ok, hi.next, hi.keep, hi.writer, hi.readers, hi.excl, hi.nodup, hnop.len, hi.inv, ?_, fun u => ?_⟩⟩
    · intro hq
      exact absurd (by simp [Guard.inChange, Guard.put]) (hq t)
    · by_cases e : u = t
      · subst e
        simp only [Guard.put, if_true]
        refine ⟨h1, h3, ?_⟩
        have hlen := hi.len
        have := hb _ _ _ hp
        cases cow with
        | true =>
          refine wp_mono (fun a ha => hZ a (by have := hi.next; omega)) ?_ (hI.cow_ok _ _ _ _ F (by omega) h2 f1)
          rintro r h' ⟨F', g1, g2⟩
          exact ⟨F', g1, fun x hx => (g2 x hx).elim (fun h => hZ x (by have := hi.next; omega)) (f2 x)⟩
        | false =>
          refine wp_mono (fun a ha => ha.elim (f2 a) fun h => hZ a (by have := hi.next; omega)) ?_ (hI.inp_ok _ _ _ _ F (by omega) h2 f1)
          rintro r h' ⟨F', g1, g2⟩
          exact ⟨F', g1, fun x hx => (g2 x hx).elim (fun h => hZ x (by have := hi.next; omega)) (f2 x)⟩
      · simp only [Guard.put, e, if_false]
        exact hi.th u
  · -- a read begins
    rename_i k c hp
    rw [hp] at ht
    obtain ⟨h1, h2⟩ := ht
    obtain ⟨F, f1, f2⟩ := hi.obj (hi.quiet (t := t) h1 (by simp [Guard.inChange, hp]))
    refine ⟨[], by simp [Guard.put], trivial, ⟨hi.ok, hi.next, hi.keep, hi.writer, hi.readers, hi.excl, hi.nodup, hnop.len, hi.inv, fun _ => ⟨F, f1, f2⟩, fun u => ?_⟩⟩
    by_cases e : u = t
    · subst e
      simp only [Guard.put, if_true]
      exact ⟨h1, h2, hR _ _ _ b.tree F (by have := hi.len; omega) f1⟩
    · simp only [Guard.put, e, if_false]
      exact hi.th u
  · -- a change ends
    rename_i o r c hp
    rw [hp] at ht
    obtain ⟨h1, h2, h3⟩ := ht
    have hw := modeOf_sole.1 h1
    have hr : s.readers = [] := by
      rcases hi.excl with h | h
      · rw [hw] at h; cases h
      · exact h
    refine ⟨[.change t o], rfl, ⟨⟨hi.writer.trans hw, hi.readers.trans hr⟩, trivial⟩, ⟨hi.ok, hi.next, hi.keep, hi.writer, hi.readers, hi.excl, hi.nodup, ?_, ?_, ?_, fun u => ?_⟩⟩
    · have := hi.len
      have := he _ _ _ _ hp
      simp only [GBoard.replay, GBoard.step, List.length_cons]; omega
    · intro h
      have h : s.writer = none := h
      rw [hw] at h; cases h
    · intro _; exact h3
    · by_cases e : u = t
      · subst e
        simp only [Guard.note, Guard.put, if_true]
        show GAct.Legal _ _ _ _ c _ (o :: b.tree)
        rw [h1]; exact h2
      · have g1 := hi.th u
        simp only [Guard.note, Guard.put, e, if_false]
        rw [hi.alone hw e] at g1 ⊢
        exact g1.any _ _
  · -- a change goes on
    rename_i o p c hnr hp
    rw [hp] at ht
    obtain ⟨h1, h2, h3⟩ := ht
    have hw := modeOf_sole.1 h1
    cases hs : p.step s.heap with
    | none => exact ⟨[], by simp, trivial, hnop⟩
    | some qh =>
      obtain ⟨q, h⟩ := qh
      obtain ⟨s1, _, _, s4, s5⟩ := step_solo h3 hs
      refine ⟨[], by simp [Guard.put], trivial, ⟨step_ok hi.ok h3 hs, Nat.le_trans hi.next s4, ?_, hi.writer, hi.readers, hi.excl, hi.nodup, hnop.len, hi.inv, ?_, fun u => ?_⟩⟩
      · intro a ha hz
        show h.mem a = _
        rw [s5 a (by have := hi.next; omega) hz]
        exact hi.keep a ha hz
      · intro hq
        exact absurd (by simp [Guard.inChange, Guard.put]) (hq t)
      · by_cases e : u = t
        · subst e
          simp only [Guard.put, if_true]
          exact ⟨h1, h2, s1⟩
        · have g1 := hi.th u
          simp only [Guard.put, e, if_false]
          rw [hi.alone hw e] at g1 ⊢
          exact g1.any _ _
  · -- a read ends
    rename_i k a c hp
    rw [hp] at ht
    obtain ⟨h1, h2, _, h3⟩ := ht
    refine ⟨[.answer t k a], rfl, ⟨⟨?_, h3⟩, trivial⟩, ⟨hi.ok, hi.next, hi.keep, hi.writer, hi.readers, hi.excl, hi.nodup, hnop.len, hi.inv, ?_, fun u => ?_⟩⟩
    · rw [hi.writer, hi.readers]
      by_cases hw : s.writer = some t
      · refine .inl ⟨hw, ?_⟩
        rcases hi.excl with h | h
        · rw [hw] at h; cases h
        · exact h
      · have hin : t ∈ s.readers := by
          by_cases hin : t ∈ s.readers
          · exact hin
          · simp [modeOf, hw, hin] at h1
        refine .inr ⟨?_, hin⟩
        rcases hi.excl with h | h
        · exact h
        · rw [h] at hin; simp at hin
    · intro hq
      refine hi.obj fun u hu => ?_
      by_cases e : u = t
      · subst e; simp [Guard.inChange, hp] at hu
      · exact hq u (by simpa [Guard.inChange, Guard.note, Guard.put, e] using hu)
    · by_cases e : u = t
      · subst e
        simp only [Guard.note, Guard.put, if_true]
        exact h2 a h3
      · simp only [Guard.note, Guard.put, e, if_false]
        exact hi.th u
  · -- a read goes on
    rename_i k p c hnr hp
    rw [hp] at ht
    obtain ⟨h1, h2, h3⟩ := ht
    rcases read_next h3 with ⟨x, rfl, _⟩ | ⟨a, kk, c0, rfl, r1, r2⟩
    · exact absurd rfl (hnr x)
    · simp only [Prog.step, r1]
      refine ⟨[], by simp [Guard.put], trivial, ⟨hi.ok, hi.next, hi.keep, hi.writer, hi.readers, hi.excl, hi.nodup, hnop.len, hi.inv, ?_, fun u => ?_⟩⟩
      · intro hq
        refine hi.obj fun u hu => ?_
        by_cases e : u = t
        · subst e; simp [Guard.inChange, hp] at hu
        · exact hq u (by simpa [Guard.inChange, Guard.put, e] using hu)
      · by_cases e : u = t
        · subst e
          simp only [Guard.put, if_true]
          exact ⟨h1, h2, r2⟩
        · simp only [Guard.put, e, if_false]
          exact hi.th u

theorem guard_exec {I : OImpl D O R} {J : List O → Prop} {n m : Nat} (hI : I.Lawful n) (Rd : K → R → Prog D A) (P : K → List O → A → Prop)
    (hR : ∀ k h r l F, l.length ≤ n → I.Obj h r l F → wp (fun _ => False) (Rd k r) (fun x h' => h' = h ∧ P k l x) h)
    {h0 : Heap D} {Z : Addr → Prop} (hZ : ∀ a, h0.next ≤ a → Z a) (sched : List T) (hm : m + sched.length ≤ n) {s : Guard D T O R K A} {b : GBoard T O} (hi : GuardInv I J P h0 Z m s b) :
    ∃ es, (s.exec I Rd sched).log = s.log ++ es ∧ b.FitsAll P es ∧ GuardInv I J P h0 Z (m + sched.length) (s.exec I Rd sched) (b.replay es) := by
  induction sched generalizing m s b with
  | nil => exact ⟨[], by simp [Guard.exec], trivial, hi⟩
  | cons t ts ih =>
    simp only [List.length_cons] at hm ⊢
    obtain ⟨e1, l1, f1, i1⟩ := guard_step (m' := m + 1) hI Rd P hR (by omega) (by omega) hZ hi t (fun _ _ _ _ => by omega) (fun _ _ _ _ _ => by omega)
    obtain ⟨e2, l2, f2, i2⟩ := ih (m := m + 1) (by omega) i1
    refine ⟨e1 ++ e2, by simp only [Guard.exec]; rw [l2, l1, List.append_assoc], (GBoard.fitsAll_append P b e1 e2).2 ⟨f1, f2⟩, ?_⟩
    rw [GBoard.replay_append, show m + (ts.length + 1) = m + 1 + ts.length by omega]
    exact i2

/-! ## The record follows the goroutines -/

theorem gstep_follows {I : OImpl D O R} (Rd : K → R → Prog D A) (s : Guard D T O R K A) (t : T) :
    ((s.step I Rd t).log = s.log ∧ ∀ u, ((s.step I Rd t).th u).todo = (s.th u).todo) ∨
    ∃ e g, (s.step I Rd t).log = s.log ++ [e] ∧ (s.th t).todo.On t e g ∧ ∀ u, ((s.step I Rd t).th u).todo = if u = t then g else (s.th u).todo := by
  cases hp : s.th t with
  | idle g =>
    cases g with
    | done => exact .inl (by simp [Guard.step, hp])
    | lock c =>
      by_cases hh : s.writer = none ∧ s.readers = []
      · refine .inr ⟨.lock t, c, by simp [Guard.step, hp, hh, Guard.note, Guard.put], ⟨rfl, rfl⟩, fun u => ?_⟩
        by_cases h : u = t <;> simp [Guard.step, hp, hh, Guard.note, Guard.put, h, GPhase.todo]
      · exact .inl (by simp only [Guard.step, hp, hh, if_false]; simp)
    | unlock c =>
      refine .inr ⟨.unlock t, c, by simp [Guard.step, hp, Guard.note, Guard.put], ⟨rfl, rfl⟩, fun u => ?_⟩
      by_cases h : u = t <;> simp [Guard.step, hp, Guard.note, Guard.put, h, GPhase.todo]
    | rlock c =>
      by_cases hh : s.writer = none
      · refine .inr ⟨.rlock t, c, by simp [Guard.step, hp, hh, Guard.note, Guard.put], ⟨rfl, rfl⟩, fun u => ?_⟩
        by_cases h : u = t <;> simp [Guard.step, hp, hh, Guard.note, Guard.put, h, GPhase.todo]
      · exact .inl (by simp only [Guard.step, hp, hh, if_false]; simp)
    | runlock c =>
      refine .inr ⟨.runlock t, c, by simp [Guard.step, hp, Guard.note, Guard.put], ⟨rfl, rfl⟩, fun u => ?_⟩
      by_cases h : u = t <;> simp [Guard.step, hp, Guard.note, Guard.put, h, GPhase.todo]
    | change b o c =>
      refine .inl ⟨by simp [Guard.step, hp, Guard.put], fun u => ?_⟩
      by_cases h : u = t <;> simp [Guard.step, hp, Guard.put, h, GPhase.todo]
    | read k c =>
      refine .inl ⟨by simp [Guard.step, hp, Guard.put], fun u => ?_⟩
      by_cases h : u = t <;> simp [Guard.step, hp, Guard.put, h, GPhase.todo]
  | changing b o p g =>
    cases p with
    | ret r =>
      refine .inr ⟨.change t o, g, by simp [Guard.step, hp, Guard.note, Guard.put], ⟨rfl, rfl⟩, fun u => ?_⟩
      by_cases h : u = t <;> simp [Guard.step, hp, Guard.note, Guard.put, h, GPhase.todo]
    | stop e => exact .inl (by simp [Guard.step, hp, Prog.step])
    | read a k =>
      cases hm : s.heap.mem a <;>
      · refine .inl ⟨by simp [Guard.step, hp, Prog.step, hm, Guard.put], fun u => ?_⟩
        by_cases h : u = t <;> simp [Guard.step, hp, Prog.step, hm, Guard.put, h, GPhase.todo]
    | write a c k =>
      refine .inl ⟨by simp [Guard.step, hp, Prog.step, Guard.put], fun u => ?_⟩
      by_cases h : u = t <;> simp [Guard.step, hp, Prog.step, Guard.put, h, GPhase.todo]
    | alloc c k =>
      refine .inl ⟨by simp [Guard.step, hp, Prog.step, Guard.put], fun u => ?_⟩
      by_cases h : u = t <;> simp [Guard.step, hp, Prog.step, Guard.put, h, GPhase.todo]
  | reading k p g =>
    cases p with
    | ret x =>
      refine .inr ⟨.answer t k x, g x, by simp [Guard.step, hp, Guard.note, Guard.put], ⟨x, rfl, rfl⟩, fun u => ?_⟩
      by_cases h : u = t <;> simp [Guard.step, hp, Guard.note, Guard.put, h, GPhase.todo]
    | stop e => exact .inl (by simp [Guard.step, hp, Prog.step])
    | read a k =>
      cases hm : s.heap.mem a <;>
      · refine .inl ⟨by simp [Guard.step, hp, Prog.step, hm, Guard.put], fun u => ?_⟩
        by_cases h : u = t <;> simp [Guard.step, hp, Prog.step, hm, Guard.put, h, GPhase.todo]
    | write a c k =>
      refine .inl ⟨by simp [Guard.step, hp, Prog.step, Guard.put], fun u => ?_⟩
      by_cases h : u = t <;> simp [Guard.step, hp, Prog.step, Guard.put, h, GPhase.todo]
    | alloc c k =>
      refine .inl ⟨by simp [Guard.step, hp, Prog.step, Guard.put], fun u => ?_⟩
      by_cases h : u = t <;> simp [Guard.step, hp, Prog.step, Guard.put, h, GPhase.todo]

theorem gexec_follows {I : OImpl D O R} (Rd : K → R → Prog D A) {act : T → GAct O K A} (sched : List T) {s : Guard D T O R K A}
    (hs : GFollows act s.log fun t => (s.th t).todo) : GFollows act (s.exec I Rd sched).log fun t => ((s.exec I Rd sched).th t).todo := by
  induction sched generalizing s with
  | nil => exact hs
  | cons t ts ih =>
    apply ih
    rcases gstep_follows (I := I) Rd s t with ⟨h1, h2⟩ | ⟨e, g, h1, h2, h3⟩
    · rw [h1, show (fun u => ((s.step I Rd t).th u).todo) = _ from funext h2]; exact hs
    · rw [h1, show (fun u => ((s.step I Rd t).th u).todo) = _ from funext h3]; exact hs.snoc h2

/-- What goroutines sharing the tree can rely on, at any point of a schedule: the record of events is what the goroutines were to do (`act`) and fits the board; sections are atomic; nobody has failed; no
node is about to be written while another goroutine is about to touch it; whenever nobody is in the middle of a change the tree is what the board says; who has not come to the
end can go on or waits for the lock, which somebody has who can go on. -/
structure GuardPromise (P : K → List O → A → Prop) (Ob : Heap D → R → List O → Prop) (b : GBoard T O) (act : T → GAct O K A) (s : Guard D T O R K A) : Prop where
  follows : GFollows act s.log fun t => (s.th t).todo
  fits : b.FitsAll P s.log
  sections : Sections s.log
  safe : ∀ t, ¬ s.failed t
  norace : ∀ t u a, t ≠ u → s.writes t = some a → s.touches u ≠ some a
  writer : (b.replay s.log).writer = s.writer
  readers : (b.replay s.log).readers = s.readers
  shows : (∀ t, ¬ s.inChange t) → Ob s.heap s.root (b.replay s.log).tree
  progress : ∀ t, s.ended t ∨ s.ready t ∨ ∃ u, (s.writer = some u ∨ u ∈ s.readers) ∧ u ≠ t ∧ s.ready u

theorem GuardInv.promise {I : OImpl D O R} {J : List O → Prop} {n m : Nat} {P : K → List O → A → Prop} {Ob : Heap D → R → List O → Prop}
    (hO : ∀ h r l F, l.length ≤ n → I.Obj h r l F → Ob h r l) (hm : m ≤ n) {h0 : Heap D} {Z : Addr → Prop}
    {s : Guard D T O R K A} {b : GBoard T O} {act : T → GAct O K A} (hg : GFollows act s.log fun t => (s.th t).todo)
    (hf : b.FitsAll P s.log) (hi : GuardInv I J P h0 Z m s (b.replay s.log)) : GuardPromise P Ob b act s := by
  refine ⟨hg, hf, fits_sections hf, fun t => ?_, fun t u a hne hw ht => ?_, hi.writer, hi.readers, fun hq => ?_, fun t => ?_⟩
  · have hg := hi.th t
    unfold Guard.failed
    split
    · exact id
    · rename_i hp
      rw [hp] at hg
      rintro ⟨e, rfl⟩
      exact hg.2.2
    · rename_i hp
      rw [hp] at hg
      rintro ⟨e, rfl⟩
      exact hg.2.2
  · have hg := hi.th t
    have hu := hi.th u
    unfold Guard.writes at hw
    unfold Guard.touches at ht
    split at hw
    · cases hw
    · rename_i hp
      rw [hp] at hg
      rw [hi.alone (modeOf_sole.1 hg.1) (fun h => hne h.symm)] at hu
      split at ht
      · cases ht
      · rename_i hpu
        rw [hpu] at hu
        cases hu.1
      · rename_i hpu
        rw [hpu] at hu
        exact hu.1 rfl
    · rename_i hp
      rw [hp] at hg
      rcases read_next hg.2.2 with ⟨x, rfl, _⟩ | ⟨b, kk, c0, rfl, r1, r2⟩ <;> cases hw
  · obtain ⟨F, f1, _⟩ := hi.obj hq
    exact hO _ _ _ _ (by have := hi.len; omega) f1
  · have rd : ∀ u, modeOf s.writer s.readers u ≠ .free → s.ready u := by
      intro u hu
      have hg := hi.th u
      unfold Guard.ready
      split
      · rename_i hp
        rw [hp] at hg
        exact absurd hg hu
      · rename_i hp
        rw [hp] at hg
        exact absurd hg.1 hu
      · rename_i hp
        rw [hp] at hg
        exact absurd hg.1 hu
      · trivial
    by_cases h1 : s.ended t
    · exact .inl h1
    · by_cases h2 : s.ready t
      · exact .inr (.inl h2)
      · have hfree : modeOf s.writer s.readers t = .free := by
          cases hmo : modeOf s.writer s.readers t with
          | free => rfl
          | shared => exact absurd (rd t (by rw [hmo]; simp)) h2
          | sole => exact absurd (rd t (by rw [hmo]; simp)) h2
        refine .inr (.inr ?_)
        have go : ∀ u, s.writer = some u ∨ u ∈ s.readers → ∃ u, (s.writer = some u ∨ u ∈ s.readers) ∧ u ≠ t ∧ s.ready u := by
          intro u hu
          have hmu : modeOf s.writer s.readers u ≠ .free := by
            rcases hu with h | h
            · rw [modeOf_sole.2 h]; simp
            · intro hx; exact modeOf_free hx h
          exact ⟨u, hu, by rintro rfl; exact hmu hfree, rd u hmu⟩
        cases hw : s.writer with
        | some u => rw [hw] at go; exact go u (.inl rfl)
        | none =>
          cases hr : s.readers with
          | cons u us => rw [hw, hr] at go; exact go u (.inr (by simp))
          | nil =>
            exfalso
            apply h2
            unfold Guard.ready
            split
            · rename_i hp; exact h1 hp
            · exact ⟨hw, hr⟩
            · exact hw
            · trivial

omit [DecidableEq T] in
/-- The board at the start. -/
def GBoard.start (l : List O) : GBoard T O := ⟨l, none, []⟩

/-- After any legal history the client shares one of its trees (which shares no nodes with the others it holds); any number of goroutines use it, in any schedule.  The
other trees of the client stay as they are. -/
theorem guard_sound {I : OImpl D O R} {n : Nat} (hI : I.Lawful n) (ops : List (SOp O)) (hl : (Book.init : Book O).LegalAll2 I.cowOk I.inpOk ops)
    (Rd : K → R → Prog D A) (P : K → List O → A → Prop) (Ob : Heap D → R → List O → Prop)
    (hR : ∀ k h r l F, l.length ≤ n → I.Obj h r l F → wp (fun _ => False) (Rd k r) (fun x h' => h' = h ∧ P k l x) h)
    (hO : ∀ h r l F, l.length ≤ n → I.Obj h r l F → Ob h r l) (J : List O → Prop) (act : T → GAct O K A)
    (ha : ∀ t, (act t).Legal J I.cowOk I.inpOk P .free []) (sched : List T) (hn : ops.length + sched.length ≤ n) :
    ∃ s, OStore.init.exec I ops = .ok s ∧ ∀ (i : Nat) r v, s.roots[i]? = some r → (Book.init.exec ops).vs[i]? = some v → J v.2 →
      (∀ j u, j ≠ i → (Book.init.exec ops).vs[j]? = some u → u.1 ≠ v.1) →
      GuardPromise P Ob (GBoard.start v.2) act ((Guard.start s.heap r act).exec I Rd sched) ∧
      ∀ (j : Nat) r' u, j ≠ i → s.roots[j]? = some r' → (Book.init.exec ops).vs[j]? = some u → Ob ((Guard.start s.heap r act).exec I Rd sched).heap r' u.2 := by
  obtain ⟨s, e, i1⟩ := oexec_inv hI (oinv_init I) ops (by omega) hl
  refine ⟨s, e, fun i r v hr hv hJ hx => ?_⟩
  obtain ⟨Ts, _, hk, h1, h2, h3, h4⟩ := i1
  have find : ∀ (j : Nat) r' u, s.roots[j]? = some r' → (Book.init.exec ops).vs[j]? = some u →
      ∃ F, ((r', F), u) ∈ Ts ∧ I.Obj s.heap r' u.2 F ∧ u.2.length ≤ n := by
    intro j r' u hr hu
    rw [h1, List.getElem?_map] at hr
    rw [h2, List.getElem?_map] at hu
    cases hT : Ts[j]? with
    | none => simp [hT] at hr
    | some x =>
      simp only [hT, Option.map_some, Option.some.injEq] at hr hu
      subst hr hu
      have hmem := List.mem_of_getElem? hT
      obtain ⟨a, _, c⟩ := h3 x hmem
      exact ⟨x.1.2, hmem, a, by omega⟩
  obtain ⟨F, f1, f2, f3⟩ := find i r v hr hv
  have hlen : v.2.length ≤ ops.length := by
    have := (h3 _ f1).2.2
    simp only at this
    omega
  have h0 : GuardInv (T := T) (K := K) (A := A) I J P s.heap (fun a => F a ∨ s.heap.next ≤ a) ops.length (Guard.start s.heap r act) (GBoard.start v.2) := by
    refine ⟨hk, Nat.le_refl _, fun _ _ _ => rfl, rfl, rfl, .inl rfl, List.nodup_nil, hlen, fun _ => hJ, fun _ => ⟨F, f2, fun x hx => .inl hx⟩, fun t => ?_⟩
    have : modeOf (Guard.start s.heap r act).writer (Guard.start s.heap r act).readers t = .free := by simp [modeOf, Guard.start]
    rw [this]
    exact GAct.Legal.any (ha t) _
  obtain ⟨es, l1, fit, inv⟩ := guard_exec hI Rd P hR (fun a h => .inr h) sched hn h0
  have l1 : ((Guard.start s.heap r act).exec I Rd sched).log = es := by rw [l1]; rfl
  refine ⟨GuardInv.promise hO hn (gexec_follows Rd sched .nil) (by rw [l1]; exact fit) (by rw [l1]; exact inv), ?_⟩
  intro j r' u hj hr' hu
  obtain ⟨G, g1, g2, g3⟩ := find j r' u hr' hu
  refine hO _ _ _ G g3 (hI.frame g2 inv.next fun a ha => inv.keep a (hI.lt g2 ha) ?_)
  rintro (hF | hF)
  · exact h4 _ g1 _ f1 (hx j u hj hu) a ⟨ha, hF⟩
  · have := hI.lt g2 ha; omega

end Verif.Heap
