import Verif.Heap.Publish
import Verif.Pipe.Break
import Verif.Spec.Ranging

/-!
# Goroutines sharing a variable, with loops over Enumerate

As in `Heap/Publish.lean`, and besides: a goroutine may call `Enumerate` on a tree it holds and receive from the channel it gets, whenever it likes; so loops, loops within loops, loops
left early and loops over several trees at once are covered.  `Enumerate` starts goroutines (`Pipe/Model.lean`) that walk the tree while everybody goes on.
-/

namespace Verif.Pipe
open Verif.Heap Verif.Heap.Prog
variable {D T O R K A B E : Type}

/-- What a goroutine does (`Act` with two more): `range i`: `trees[i].Enumerate()`; the channel gets the next number.  `next ch`: receive from the `ch`-th channel and, unless it
is closed, read off the fields of the value received. -/
inductive RAct (O K A E : Type) where
  | done
  | load (c : RAct O K A E)
  | drop (i : Nat) (c : RAct O K A E)
  | read (i : Nat) (k : K) (c : Option A → RAct O K A E)
  | lock (c : RAct O K A E)
  | call (op : SOp O) (c : RAct O K A E)
  | store (i : Nat) (c : RAct O K A E)
  | unlock (c : RAct O K A E)
  | range (i : Nat) (c : RAct O K A E)
  | next (ch : Nat) (c : Option E → RAct O K A E)

/-- Where a goroutine is (`Phase` with one more): reading off a value received. -/
inductive RPhase (D O R K A E : Type) where
  | idle (g : RAct O K A E)
  | calling (op : SOp O) (p : Prog D (List R)) (g : RAct O K A E)
  | reading (i : Nat) (k : K) (p : Prog D A) (c : Option A → RAct O K A E)
  | taking (ch : Nat) (p : Prog D E) (c : Option E → RAct O K A E)

/-- A goroutine: the roots it holds, where it is, and the goroutines behind its channels. -/
structure RGor (D O R K A B E : Type) where
  roots : List R
  phase : RPhase D O R K A E
  chans : List (Proc (Cell D) B)

/-- Memory, the variable, the lock, the goroutines, and the record of events. -/
structure RHub (D T O R K A B E : Type) where
  heap : Heap D
  cur : R
  holder : Option T
  th : T → RGor D O R K A B E
  log : List (REvent T O K A E)

variable [DecidableEq T]

def RHub.put (s : RHub D T O R K A B E) (t : T) (g : RGor D O R K A B E) : RHub D T O R K A B E := { s with th := fun u => if u = t then g else s.th u }
def RHub.note (s : RHub D T O R K A B E) (e : REvent T O K A E) : RHub D T O R K A B E := { s with log := s.log ++ [e] }

/-- Goroutine `t` goes on to `ph`. -/
def RHub.to (s : RHub D T O R K A B E) (t : T) (ph : RPhase D O R K A E) : RHub D T O R K A B E := s.put t { s.th t with phase := ph }

/-- One step of goroutine `t` other than receiving.  It lets its turn pass if it has ended, has failed, or waits. -/
def RHub.step (I : OImpl D O R) (Rd : K → R → Prog D A) (Lp : Loop D R B E) (s : RHub D T O R K A B E) (t : T) : RHub D T O R K A B E :=
  match (s.th t).phase with
  | .idle .done => s
  | .idle (.load c) => (s.put t ⟨(s.th t).roots ++ [s.cur], .idle c, (s.th t).chans⟩).note (.plain (.load t))
  | .idle (.drop i c) => (s.put t ⟨(s.th t).roots.eraseIdx i, .idle c, (s.th t).chans⟩).note (.plain (.drop t i))
  | .idle (.read i k c) => match (s.th t).roots[i]? with
    | none => (s.to t (.idle (c none))).note (.plain (.answer t i k none))
    | some r => s.to t (.reading i k (Rd k r) c)
  | .idle (.lock c) => match s.holder with
    | none => { (s.to t (.idle c)).note (.plain (.lock t)) with holder := some t }
    | some _ => s
  | .idle (.call op c) => s.to t (.calling op (stepP I (s.th t).roots op) c)
  | .idle (.store i c) => { (s.to t (.idle c)).note (.plain (.store t i)) with cur := ((s.th t).roots[i]?).getD s.cur }
  | .idle (.unlock c) => { (s.to t (.idle c)).note (.plain (.unlock t)) with holder := none }
  | .idle (.range i c) => match (s.th t).roots[i]? with
    | none => s
    | some r => (s.put t ⟨(s.th t).roots, .idle c, (s.th t).chans ++ [.mk (Lp.gen r) []]⟩).note (.range t i)
  | .idle (.next _ _) => s
  | .calling op (.ret rs) g => (s.put t ⟨rs, .idle g, (s.th t).chans⟩).note (.plain (.call t op))
  | .calling op p g => match p.step s.heap with
    | none => s
    | some (q, h) => { s.to t (.calling op q g) with heap := h }
  | .reading i k (.ret a) c => (s.to t (.idle (c (some a)))).note (.plain (.answer t i k (some a)))
  | .reading i k p c => match p.step s.heap with
    | none => s
    | some (q, h) => { s.to t (.reading i k q c) with heap := h }
  | .taking ch (.ret e) c => (s.to t (.idle (c (some e)))).note (.got t ch (some e))
  | .taking ch p c => match p.step s.heap with
    | none => s
    | some (q, h) => { s.to t (.taking ch q c) with heap := h }

/-- One step of the whole: of a goroutine, of one behind a channel, or a value or the closing of a channel received. -/
inductive RStep (I : OImpl D O R) (Rd : K → R → Prog D A) (Lp : Loop D R B E) (s : RHub D T O R K A B E) : RHub D T O R K A B E → Prop where
  | act (t : T) : RStep I Rd Lp s (s.step I Rd Lp t)
  | walk {t : T} {ch : Nat} {p p' : Proc (Cell D) B} : (s.th t).chans[ch]? = some p → PStep id s.heap p none p' →
      RStep I Rd Lp s (s.put t { s.th t with chans := (s.th t).chans.set ch p' })
  | recv {t : T} {ch : Nat} {c : Option E → RAct O K A E} {p p' : Proc (Cell D) B} {b : B} : (s.th t).phase = .idle (.next ch c) → (s.th t).chans[ch]? = some p →
      PStep id s.heap p (some b) p' → RStep I Rd Lp s (s.put t ⟨(s.th t).roots, .taking ch (Lp.item b) c, (s.th t).chans.set ch p'⟩)
  | closed {t : T} {ch : Nat} {c : Option E → RAct O K A E} {ks : List (Proc (Cell D) B)} : (s.th t).phase = .idle (.next ch c) → (s.th t).chans[ch]? = some (.mk .done ks) →
      RStep I Rd Lp s ((s.to t (.idle (c none))).note (.got t ch none))

/-- The start: the variable holds `r`, nobody has the lock, holds a tree or has a channel. -/
def RHub.start (h : Heap D) (r : R) (act : T → RAct O K A E) : RHub D T O R K A B E := ⟨h, r, none, fun t => ⟨[], .idle (act t), []⟩, []⟩

/-- Which of the trees held are settled after a call: those settled before, not the new one or the one changed. -/
def settled (sh : List Bool) : SOp O → List Bool
  | .fresh => sh ++ [false]
  | .cow i _ => if i < sh.length then sh ++ [false] else sh
  | .inp i _ => sh.set i false
  | .drop i => sh.eraseIdx i

/-- What goroutines may do: as in `Act.Legal`.  With the lock, `Enumerate` is for settled trees (`sh`): those from the variable and those held when the lock was taken or the variable
last written; without it, for any tree.  `qs` is what the channels still deliver. -/
def RAct.Legal (ok iok : List O → O → Prop) (P : K → List O → A → Prop) (L : List O → List E → Prop) : RAct O K A E → Bool → Book O → List Bool → List (List E) → Prop
  | .done, lk, _, _, _ => lk = false
  | .load c, lk, b, sh, qs => ∀ l, c.Legal ok iok P L lk ⟨b.next, b.vs ++ [(0, l)]⟩ (sh ++ [true]) qs
  | .drop i c, lk, b, sh, qs => c.Legal ok iok P L lk (b.step (.drop i)) (sh.eraseIdx i) qs
  | .read i k c, lk, b, sh, qs => match b.vs[i]? with
    | none => (c none).Legal ok iok P L lk b sh qs
    | some v => ∀ a, P k v.2 a → (c (some a)).Legal ok iok P L lk b sh qs
  | .lock c, lk, b, _, qs => lk = false ∧ c.Legal ok iok P L true b.flat (b.vs.map fun _ => true) qs
  | .call op c, lk, b, sh, qs => lk = true ∧ b.Legal2 ok iok op ∧ OwnInp 1 b op ∧ c.Legal ok iok P L lk (b.step op) (settled sh op) qs
  | .store i c, lk, b, _, qs => lk = true ∧ i < b.vs.length ∧ c.Legal ok iok P L lk b.flat (b.vs.map fun _ => true) qs
  | .unlock c, lk, b, _, qs => lk = true ∧ c.Legal ok iok P L false b.flat (b.vs.map fun _ => true) qs
  | .range i c, lk, b, sh, qs => ∃ v, b.vs[i]? = some v ∧ (lk = true → sh[i]? = some true) ∧ ∀ es, L v.2 es → c.Legal ok iok P L lk b sh (qs ++ [es])
  | .next ch c, lk, b, sh, qs => ∃ es, qs[ch]? = some es ∧ (c es.head?).Legal ok iok P L lk b sh (qs.set ch es.tail)

/-! ## The same without channels

What a goroutine does is also described by an `Act` in which `Enumerate` is a read that gives the whole listing at once, and receiving is no step at all. -/

/-- The questions and answers of that. -/
def PL (P : K → List O → A → Prop) (L : List O → List E → Prop) : K ⊕ Unit → List O → A ⊕ List E → Prop
  | .inl k, l, .inl a => P k l a
  | .inr _, l, .inr es => L l es
  | _, _, _ => False

def RdL (Rd : K → R → Prog D A) : K ⊕ Unit → R → Prog D (A ⊕ List E)
  | .inl k, r => Rd k r >>= fun a => pure (.inl a)
  | .inr _, _ => .stop .fuel

def RAct.plain : RAct O K A E → List (List E) → Act O (K ⊕ Unit) (A ⊕ List E)
  | .done, _ => .done
  | .load c, qs => .load (c.plain qs)
  | .drop i c, qs => .drop i (c.plain qs)
  | .read i k c, qs => .read i (.inl k) fun
    | none => (c none).plain qs
    | some (.inl a) => (c (some a)).plain qs
    | some (.inr _) => .done
  | .lock c, qs => .lock (c.plain qs)
  | .call op c, qs => .call op (c.plain qs)
  | .store i c, qs => .store i (c.plain qs)
  | .unlock c, qs => .unlock (c.plain qs)
  | .range i c, qs => .read i (.inr ()) fun
    | some (.inr es) => c.plain (qs ++ [es])
    | _ => .done
  | .next ch c, qs => match qs[ch]? with
    | none => .done
    | some es => (c es.head?).plain (qs.set ch es.tail)

theorem RAct.Legal.plain {ok iok : List O → O → Prop} {P : K → List O → A → Prop} {L : List O → List E → Prop} (g : RAct O K A E) :
    ∀ {lk : Bool} {b : Book O} {sh : List Bool} {qs : List (List E)}, g.Legal ok iok P L lk b sh qs → (g.plain qs).Legal ok iok (PL P L) lk b := by
  induction g with
  | done => exact fun h => h
  | load c ih => exact fun h l => ih (h l)
  | drop i c ih => exact fun h => ih h
  | read i k c ih =>
    intro lk b sh qs h
    simp only [RAct.Legal] at h
    simp only [RAct.plain, Act.Legal]
    cases hv : b.vs[i]? with
    | none => rw [hv] at h; exact ih _ h
    | some v =>
      rw [hv] at h
      rintro a ha
      cases a with
      | inl a => exact ih _ (h a ha)
      | inr es => exact ha.elim
  | lock c ih => exact fun h => ⟨h.1, ih h.2⟩
  | call op c ih => exact fun h => ⟨h.1, h.2.1, h.2.2.1, ih h.2.2.2⟩
  | store i c ih => exact fun h => ⟨h.1, h.2.1, ih h.2.2⟩
  | unlock c ih => exact fun h => ⟨h.1, ih h.2⟩
  | range i c ih =>
    rintro lk b sh qs ⟨v, h1, _, h2⟩
    simp only [RAct.plain, Act.Legal, h1]
    intro a ha
    cases a with
    | inl a => exact ha.elim
    | inr es => exact ih (h2 es ha)
  | next ch c ih =>
    rintro lk b sh qs ⟨es, h1, h2⟩
    simp only [RAct.plain, h1]
    exact ih _ h2

def RPhase.plain (qs : List (List E)) : RPhase D O R K A E → Phase D O R (K ⊕ Unit) (A ⊕ List E)
  | .idle g => .idle (g.plain qs)
  | .calling op p g => .calling op p (g.plain qs)
  | .reading i k p c => .reading i (.inl k) (p >>= fun a => pure (.inl a)) fun
    | none => (c none).plain qs
    | some (.inl a) => (c (some a)).plain qs
    | some (.inr _) => .done
  | .taking ch _ c => .idle ((RAct.next ch c).plain qs)

def RHub.plain (s : RHub D T O R K A B E) (qs : T → List (List E)) : Hub D T O R (K ⊕ Unit) (A ⊕ List E) :=
  ⟨s.heap, s.cur, s.holder, fun t => ⟨(s.th t).roots, (s.th t).phase.plain (qs t)⟩, []⟩

/-! ## Invariant -/

/-- All results of a program. -/
def Prog.All {α : Type} (G : α → Prop) : Prog D α → Prop
  | .ret x => G x
  | .stop _ => True
  | .read _ k => ∀ c, Prog.All G (k c)
  | .write _ _ k => Prog.All G k
  | .alloc _ k => ∀ a, Prog.All G (k a)

theorem Prog.all_bind {α β : Type} {G : β → Prop} (p : Prog D α) {f : α → Prog D β} (h : ∀ x, Prog.All G (f x)) : Prog.All G (p >>= f) := by
  induction p with
  | ret x => exact h x
  | stop e => trivial
  | read a k ih => exact fun c => ih c
  | write a c k ih => exact ih
  | alloc c k ih => exact fun a => ih a

theorem Prog.all_step {α : Type} {G : α → Prop} {p q : Prog D α} {h h' : Heap D} (hp : Prog.All G p) (hs : p.step h = some (q, h')) : Prog.All G q := by
  cases p with
  | ret x => cases hs
  | stop e => cases hs
  | read a k =>
    simp only [Prog.step] at hs
    split at hs
    · simp only [Option.some.injEq, Prod.mk.injEq] at hs
      obtain ⟨rfl, rfl⟩ := hs; exact hp _
    · simp only [Option.some.injEq, Prod.mk.injEq] at hs
      obtain ⟨rfl, rfl⟩ := hs; trivial
  | write a c k =>
    simp only [Prog.step, Option.some.injEq, Prod.mk.injEq] at hs
    obtain ⟨rfl, rfl⟩ := hs; exact hp
  | alloc c k =>
    simp only [Prog.step, Option.some.injEq, Prod.mk.injEq] at hs
    obtain ⟨rfl, rfl⟩ := hs; exact hp _

/-- The roots after a call. -/
def Comes2 (rs : List R) (op : SOp O) (rs' : List R) : Prop := match op with
  | .fresh => ∃ r, rs' = rs ++ [r]
  | .cow i _ => if i < rs.length then ∃ r, rs' = rs ++ [r] else rs' = rs
  | .inp i _ => rs' = rs ∨ ∃ r, rs' = rs.set i r
  | .drop i => rs' = rs.eraseIdx i

theorem stepP_all (I : OImpl D O R) (rs : List R) (op : SOp O) : Prog.All (Comes2 rs op) (stepP I rs op) := by
  cases op with
  | fresh => exact Prog.all_bind _ fun r => ⟨r, rfl⟩
  | cow i o =>
    simp only [stepP]
    rcases Nat.lt_or_ge i rs.length with h | h
    · rw [List.getElem?_eq_getElem h]
      refine Prog.all_bind _ fun r => ?_
      show Comes2 rs _ _
      simp only [Comes2, if_pos h]
      exact ⟨r, rfl⟩
    · rw [List.getElem?_eq_none h]
      show Comes2 rs _ _
      simp only [Comes2, if_neg (Nat.not_lt.2 h)]
  | inp i o =>
    simp only [stepP]
    split
    · exact .inl rfl
    · exact Prog.all_bind _ fun r => .inr ⟨r, rfl⟩
  | drop i => exact rfl

/-- Settled trees have not changed since a time when memory ended at or below `base`. -/
def Settled (I : OImpl D O R) (base m : Nat) (h : Heap D) (sh : List Bool) (rs : List R) (ls : List (List O)) : Prop :=
  sh.length = rs.length ∧ ls.length = rs.length ∧ ∀ (i : Nat) r l, sh[i]? = some true → rs[i]? = some r → ls[i]? = some l → Shown I base m h r l

/-- A goroutine behind a channel that still delivers `es`: it reads memory that has not changed since a time when it ended at or below `base`. -/
def ChanInv (Lp : Loop D R B E) (base : Nat) (h : Heap D) (p : Proc (Cell D) B) (es : List E) : Prop :=
  ∃ hs pin bs n, Since hs h ∧ hs.next ≤ base ∧ Holds id pin hs ∧ p.Good pin bs n ∧ bs.length = es.length ∧
    ∀ (j : Nat) b e, bs[j]? = some b → es[j]? = some e → wp (fun _ => False) (Lp.item b) (fun x h2 => h2 = hs ∧ x = e) hs

/-- Where goroutine `t` is, and what it may do from there. -/
def PhaseInv (I : OImpl D O R) (P : K → List O → A → Prop) (L : List O → List E → Prop) (base : Nat) (h : Heap D) (lk : Bool) (rs : List R) (b : Book O) (sh : List Bool)
    (qs : List (List E)) : RPhase D O R K A E → Prop
  | .idle c => c.Legal I.cowOk I.inpOk P L lk b sh qs
  | .calling op p c => c.Legal I.cowOk I.inpOk P L lk (b.step op) (settled sh op) qs ∧ Prog.All (Comes2 rs op) p
  | .reading i k _ c => ∃ v, b.vs[i]? = some v ∧ ∀ a, P k v.2 a → (c (some a)).Legal I.cowOk I.inpOk P L lk b sh qs
  | .taking ch p c => ∃ e es hs, qs[ch]? = some (e :: es) ∧ (c (some e)).Legal I.cowOk I.inpOk P L lk b sh (qs.set ch es) ∧ Since hs h ∧ hs.next ≤ base ∧
    wp (fun _ => False) p (fun x h2 => h2 = hs ∧ x = e) hs

/-- What the channels still deliver, without the value being read off. -/
def RPhase.behind (qs : List (List E)) : RPhase D O R K A E → List (List E)
  | .taking ch _ _ => qs.set ch ((qs[ch]?).getD []).tail
  | _ => qs

/-- One goroutine and those behind its channels. -/
structure RGorInv (I : OImpl D O R) (Lp : Loop D R B E) (P : K → List O → A → Prop) (L : List O → List E → Prop) (base m : Nat) (h : Heap D) (lk : Bool) (g : RGor D O R K A B E)
    (held : List (List O)) (chs : List (List O × List E)) (b : Book O) (sh : List Bool) (qs : List (List E)) : Prop where
  phase : PhaseInv I P L base h lk g.roots b sh qs g.phase
  trees : held = b.vs.map (·.2)
  settled : lk = true → Settled I base m h sh g.roots held
  chans : g.chans.length = qs.length ∧ ∀ (ch : Nat) p es, g.chans[ch]? = some p → (g.phase.behind qs)[ch]? = some es → ChanInv Lp base h p es
  lists : chs.length = qs.length ∧ ∀ (ch : Nat) x es, chs[ch]? = some x → qs[ch]? = some es → L x.1 (x.2 ++ es)

/-- All of it. -/
def RInv (I : OImpl D O R) (Lp : Loop D R B E) (P : K → List O → A → Prop) (L : List O → List E → Prop) (base m : Nat) (s : RHub D T O R K A B E) (rb : RBoard T O E)
    (bk : T → Book O) (b : T → Book O) (sh : T → List Bool) (qs : T → List (List E)) : Prop :=
  HubInv I (PL P L) base m (s.plain qs) rb.board bk ∧
    ∀ t, RGorInv I Lp P L base m s.heap (decide (s.holder = some t)) (s.th t) (rb.board.held t) (rb.chans t) (b t) (sh t) (qs t)

theorem Settled.above {I : OImpl D O R} {base base' m m' : Nat} {h h' : Heap D} {sh : List Bool} {rs : List R} {ls : List (List O)} (hs : Settled I base m h sh rs ls)
    (ha : Above base h h') (hb : base ≤ base') (hm : m ≤ m') : Settled I base' m' h' sh rs ls :=
  ⟨hs.1, hs.2.1, fun i r l h1 h2 h3 => (hs.2.2 i r l h1 h2 h3).above ha hb hm⟩

theorem ChanInv.above {Lp : Loop D R B E} {base base' : Nat} {h h' : Heap D} {p : Proc (Cell D) B} {es : List E} (hc : ChanInv Lp base h p es) (ha : Above base h h') (hb : base ≤ base') :
    ChanInv Lp base' h' p es := by
  obtain ⟨hs, pin, bs, n, h1, h2, h3⟩ := hc
  exact ⟨hs, pin, bs, n, h1.above h2 ha, by omega, h3⟩

theorem PhaseInv.above {I : OImpl D O R} {P : K → List O → A → Prop} {L : List O → List E → Prop} {base base' : Nat} {h h' : Heap D} {lk : Bool} {rs : List R} {b : Book O}
    {sh : List Bool} {qs : List (List E)} {ph : RPhase D O R K A E} (hp : PhaseInv I P L base h lk rs b sh qs ph) (ha : Above base h h') (hb : base ≤ base') :
    PhaseInv I P L base' h' lk rs b sh qs ph := by
  cases ph with
  | idle c => exact hp
  | calling op p c => exact hp
  | reading i k p c => exact hp
  | taking ch p c =>
    obtain ⟨e, es, hs, h1, h2, h3, h4, h5⟩ := hp
    exact ⟨e, es, hs, h1, h2, h3.above h4 ha, by omega, h5⟩

/-- Nobody minds what happens from `base` on. -/
theorem RGorInv.above {I : OImpl D O R} {Lp : Loop D R B E} {P : K → List O → A → Prop} {L : List O → List E → Prop} {base base' m m' : Nat} {h h' : Heap D} {lk : Bool}
    {g : RGor D O R K A B E} {held : List (List O)} {chs : List (List O × List E)} {b : Book O} {sh : List Bool} {qs : List (List E)}
    (hg : RGorInv I Lp P L base m h lk g held chs b sh qs) (ha : Above base h h') (hb : base ≤ base') (hm : m ≤ m') : RGorInv I Lp P L base' m' h' lk g held chs b sh qs :=
  ⟨hg.phase.above ha hb, hg.trees, fun h => (hg.settled h).above ha hb hm, ⟨hg.chans.1, fun ch p es h1 h2 => (hg.chans.2 ch p es h1 h2).above ha hb⟩, hg.lists⟩

theorem RInv.next {I : OImpl D O R} {Lp : Loop D R B E} {P : K → List O → A → Prop} {L : List O → List E → Prop} {base base' m m' : Nat} {s s' : RHub D T O R K A B E}
    {rb rb' : RBoard T O E} {bk bk' b : T → Book O} {sh : T → List Bool} {qs : T → List (List E)} (hi : RInv I Lp P L base m s rb bk b sh qs) (t : T) (b' : Book O) (sh' : List Bool)
    (q' : List (List E)) (ha : Above base s.heap s'.heap) (hb : base ≤ base') (hm : m ≤ m')
    (hth : ∀ u, u ≠ t → s'.th u = s.th u) (hh : ∀ u, u ≠ t → (s'.holder = some u ↔ s.holder = some u)) (hheld : ∀ u, u ≠ t → rb'.board.held u = rb.board.held u)
    (hch : ∀ u, u ≠ t → rb'.chans u = rb.chans u)
    (hg : RGorInv I Lp P L base' m' s'.heap (decide (s'.holder = some t)) (s'.th t) (rb'.board.held t) (rb'.chans t) b' sh' q')
    (hi' : HubInv I (PL P L) base' m' (s'.plain fun u => if u = t then q' else qs u) rb'.board bk') :
    RInv I Lp P L base' m' s' rb' bk' (fun u => if u = t then b' else b u) (fun u => if u = t then sh' else sh u) (fun u => if u = t then q' else qs u) := by
  refine ⟨hi', fun u => ?_⟩
  by_cases e : u = t
  · subst e; simpa using hg
  · simp only [if_neg e, hth u e, hheld u e, hch u e, decide_eq_decide.2 (hh u e)]
    exact (hi.2 u).above ha hb hm

/-! ## Every step keeps the invariant -/

/-- An event among those of the description without channels. -/
def emb : PEvent T O K A → PEvent T O (K ⊕ Unit) (A ⊕ List E)
  | .load t => .load t
  | .drop t i => .drop t i
  | .call t op => .call t op
  | .store t i => .store t i
  | .answer t i k x => .answer t i (.inl k) (x.map .inl)
  | .lock t => .lock t
  | .unlock t => .unlock t

theorem emb_step (bd : Board T O) (e : PEvent T O K A) : bd.step (emb (E := E) e) = bd.step e := by cases e <;> rfl

omit [DecidableEq T] in
theorem emb_fits {P : K → List O → A → Prop} {L : List O → List E → Prop} {bd : Board T O} {e : PEvent T O K A} (h : bd.Fits (PL P L) (emb e)) : bd.Fits P e := by
  cases e with
  | answer t i k x =>
    simp only [emb, Board.Fits] at h ⊢
    split
    · rename_i h0
      rw [h0] at h
      cases x with
      | none => rfl
      | some a => cases h
    · rename_i h0
      rw [h0] at h
      obtain ⟨a, h1, h2⟩ := h
      cases x with
      | none => cases h1
      | some x => cases h1; exact ⟨x, rfl, h2⟩
  | _ => exact h

theorem emb_replay (rb : RBoard T O E) : ∀ es : List (PEvent T O K A), rb.board.replay (es.map (emb (E := E))) = (rb.replay (es.map .plain)).board := by
  intro es
  induction es generalizing rb with
  | nil => rfl
  | cons e es ih =>
    simp only [List.map_cons, Board.replay, RBoard.replay, emb_step]
    exact ih (rb.step (.plain e))

theorem emb_fitsAll {P : K → List O → A → Prop} {L : List O → List E → Prop} (rb : RBoard T O E) : ∀ es : List (PEvent T O K A), rb.board.FitsAll (PL P L) (es.map emb) →
    rb.FitsAll P L (es.map .plain) := by
  intro es
  induction es generalizing rb with
  | nil => exact fun h => h
  | cons e es ih =>
    rintro ⟨h1, h2⟩
    rw [emb_step] at h2
    exact ⟨emb_fits h1, ih (rb.step (.plain e)) h2⟩

/-- The steps both descriptions have. -/
def RPhase.common : RPhase D O R K A E → Prop
  | .idle (.range _ _) => False
  | .idle (.next _ _) => False
  | .taking _ _ _ => False
  | _ => True

theorem plain_eq {s s' : RHub D T O R K A B E} {qs : T → List (List E)} {t : T} {l : List (PEvent T O (K ⊕ Unit) (A ⊕ List E))} (h : ∀ u, u ≠ t → s'.th u = s.th u) :
    { s'.plain qs with log := l } =
      ⟨s'.heap, s'.cur, s'.holder, fun u => if u = t then ⟨(s'.th t).roots, (s'.th t).phase.plain (qs t)⟩ else (s.plain qs).th u, l⟩ := by
  simp only [RHub.plain, Hub.mk.injEq, true_and, and_true]
  funext u
  by_cases e : u = t
  · subst e; simp
  · simp [e, h u e]

theorem rstep_other {I : OImpl D O R} (Rd : K → R → Prog D A) (Lp : Loop D R B E) (s : RHub D T O R K A B E) {t u : T} (h : u ≠ t) : (s.step I Rd Lp t).th u = s.th u := by
  unfold RHub.step
  repeat' split
  all_goals simp [RHub.note, RHub.put, RHub.to, h]

theorem bindInl_step (p : Prog D A) (h : Heap D) : (p >>= fun a => (pure (.inl a) : Prog D (A ⊕ List E))).step h =
    (p.step h).map fun x => (x.1 >>= fun a => pure (.inl a), x.2) := by
  cases p with
  | ret x => rfl
  | stop e => rfl
  | read a k =>
    show (Prog.read a fun c => k c >>= _).step h = _
    simp only [Prog.step]
    cases h.mem a <;> rfl
  | write a c k => rfl
  | alloc c k => rfl

/-- These steps agree. -/
theorem plain_step (I : OImpl D O R) (Rd : K → R → Prog D A) (Lp : Loop D R B E) (s : RHub D T O R K A B E) (qs : T → List (List E)) (t : T) (hc : (s.th t).phase.common) :
    ∃ es : List (PEvent T O K A), (s.step I Rd Lp t).log = s.log ++ es.map .plain ∧
      (s.plain qs).step I (RdL Rd) t = { (s.step I Rd Lp t).plain qs with log := es.map emb } := by
  have hp : ((s.plain qs).th t).phase = (s.th t).phase.plain (qs t) := rfl
  have hr : ((s.plain qs).th t).roots = (s.th t).roots := rfl
  have key : ∀ es : List (PEvent T O K A), (s.step I Rd Lp t).log = s.log ++ es.map .plain →
      (s.plain qs).step I (RdL Rd) t = ⟨(s.step I Rd Lp t).heap, (s.step I Rd Lp t).cur, (s.step I Rd Lp t).holder,
        fun u => if u = t then ⟨((s.step I Rd Lp t).th t).roots, ((s.step I Rd Lp t).th t).phase.plain (qs t)⟩ else (s.plain qs).th u, es.map emb⟩ →
      ∃ es : List (PEvent T O K A), (s.step I Rd Lp t).log = s.log ++ es.map .plain ∧
      (s.plain qs).step I (RdL Rd) t = { (s.step I Rd Lp t).plain qs with log := es.map emb } := by
    intro es h1 h2
    exact ⟨es, h1, by rw [plain_eq (s := s) (t := t) fun u hu => rstep_other Rd Lp s hu]; exact h2⟩
  have self : s.plain qs = ⟨s.heap, s.cur, s.holder, fun u => if u = t then ⟨(s.th t).roots, (s.th t).phase.plain (qs t)⟩ else (s.plain qs).th u, []⟩ := by
    simp only [RHub.plain, Hub.mk.injEq, true_and, and_true]
    funext u
    by_cases e : u = t
    · subst e; simp
    · simp [e]
  cases e : (s.th t).phase with
  | idle g =>
    rw [e] at hc hp
    simp only [RPhase.plain] at hp
    cases g with
    | done =>
      refine key [] (by simp [RHub.step, e]) ?_
      simp only [RAct.plain] at hp
      simp only [Hub.step, hp, RHub.step, e, List.map_nil]
      rw [← e]; exact self
    | load c =>
      refine key [.load t] (by simp [RHub.step, e, RHub.note, RHub.put]) ?_
      simp only [RAct.plain] at hp
      simp only [Hub.step, hp, RHub.step, e, hr, RHub.note, RHub.put, Hub.note, Hub.put, if_true]
      rfl
    | drop i c =>
      refine key [.drop t i] (by simp [RHub.step, e, RHub.note, RHub.put]) ?_
      simp only [RAct.plain] at hp
      simp only [Hub.step, hp, RHub.step, e, hr, RHub.note, RHub.put, Hub.note, Hub.put, if_true]
      rfl
    | read i k c =>
      simp only [RAct.plain] at hp
      cases h0 : (s.th t).roots[i]? with
      | none =>
        refine key [.answer t i k none] (by simp [RHub.step, e, h0, RHub.note, RHub.put, RHub.to]) ?_
        simp only [Hub.step, hp, RHub.step, e, hr, h0, RHub.note, RHub.put, RHub.to, Hub.note, Hub.put, if_true]
        rfl
      | some r =>
        refine key [] (by simp [RHub.step, e, h0, RHub.note, RHub.put, RHub.to]) ?_
        simp only [Hub.step, hp, RHub.step, e, hr, h0, RHub.note, RHub.put, RHub.to, Hub.note, Hub.put, if_true]
        rfl
    | lock c =>
      simp only [RAct.plain] at hp
      have hh : (s.plain qs).holder = s.holder := rfl
      cases h0 : s.holder with
      | none =>
        refine key [.lock t] (by simp [RHub.step, e, h0, RHub.note, RHub.put, RHub.to]) ?_
        simp only [Hub.step, hp, RHub.step, e, hr, hh, h0, RHub.note, RHub.put, RHub.to, Hub.note, Hub.put, if_true]
        rfl
      | some u =>
        refine key [] (by simp [RHub.step, e, h0, RHub.note, RHub.put, RHub.to]) ?_
        simp only [Hub.step, hp, RHub.step, e, hr, hh, h0, List.map_nil]
        rw [← e, ← h0]; exact self
    | call op c =>
      refine key [] (by simp [RHub.step, e, RHub.note, RHub.put, RHub.to]) ?_
      simp only [RAct.plain] at hp
      simp only [Hub.step, hp, RHub.step, e, hr, RHub.note, RHub.put, RHub.to, Hub.note, Hub.put, if_true]
      rfl
    | store i c =>
      refine key [.store t i] (by simp [RHub.step, e, RHub.note, RHub.put, RHub.to]) ?_
      simp only [RAct.plain] at hp
      simp only [Hub.step, hp, RHub.step, e, hr, RHub.note, RHub.put, RHub.to, Hub.note, Hub.put, if_true]
      rfl
    | unlock c =>
      refine key [.unlock t] (by simp [RHub.step, e, RHub.note, RHub.put, RHub.to]) ?_
      simp only [RAct.plain] at hp
      simp only [Hub.step, hp, RHub.step, e, hr, RHub.note, RHub.put, RHub.to, Hub.note, Hub.put, if_true]
      rfl
    | range i c => exact hc.elim
    | next ch c => exact hc.elim
  | calling op p g =>
    rw [e] at hc hp
    simp only [RPhase.plain] at hp
    have hn : (∀ x, p ≠ .ret x) → ∃ es : List (PEvent T O K A), (s.step I Rd Lp t).log = s.log ++ es.map .plain ∧
        (s.plain qs).step I (RdL Rd) t = { (s.step I Rd Lp t).plain qs with log := es.map emb } := by
      intro hne
      have e1 : (s.plain qs).step I (RdL Rd) t = match p.step s.heap with
          | none => s.plain qs
          | some (q, h) => { (s.plain qs).put t ⟨(s.th t).roots, .calling op q (g.plain (qs t))⟩ with heap := h } := by
        cases p with
        | ret x => exact absurd rfl (hne x)
        | _ => simp only [Hub.step, hp]; rfl
      have e2 : s.step I Rd Lp t = match p.step s.heap with
          | none => s
          | some (q, h) => { s.to t (.calling op q g) with heap := h } := by
        cases p with
        | ret x => exact absurd rfl (hne x)
        | _ => simp only [RHub.step, e]
      refine key [] ?_ ?_
      · rw [e2]; split <;> simp [RHub.to, RHub.put]
      · rw [e1, e2]
        cases p.step s.heap with
        | none => exact self
        | some x =>
          simp only [RHub.to, RHub.put, Hub.put, if_true]
          rfl
    cases p with
    | ret x =>
      refine key [.call t op] (by simp [RHub.step, e, RHub.note, RHub.put, RHub.to]) ?_
      simp only [Hub.step, hp, RHub.step, e, hr, RHub.note, RHub.put, RHub.to, Hub.note, Hub.put, if_true]
      rfl
    | _ => exact hn (by intro x h; cases h)
  | reading i k p c =>
    rw [e] at hc hp
    simp only [RPhase.plain] at hp
    have hn : (∀ x, p ≠ .ret x) → ∃ es : List (PEvent T O K A), (s.step I Rd Lp t).log = s.log ++ es.map .plain ∧
        (s.plain qs).step I (RdL Rd) t = { (s.step I Rd Lp t).plain qs with log := es.map emb } := by
      intro hne
      have e1 : (s.plain qs).step I (RdL Rd) t = match (p.step s.heap).map (fun x => (x.1 >>= fun a => (pure (.inl a) : Prog D (A ⊕ List E)), x.2)) with
          | none => s.plain qs
          | some (q, h) => { (s.plain qs).put t ⟨(s.th t).roots, .reading i (.inl k) q fun
            | none => (c none).plain (qs t)
            | some (.inl a) => (c (some a)).plain (qs t)
            | some (.inr _) => .done⟩ with heap := h } := by
        have hb := bindInl_step (E := E) p s.heap
        rw [← hb]
        cases p with
        | ret x => exact absurd rfl (hne x)
        | stop x => simp only [Hub.step, hp]; rfl
        | read a f =>
          have hp' : ((s.plain qs).th t).phase = .reading i (.inl k) (.read a fun x => f x >>= fun a => (pure (.inl a) : Prog D (A ⊕ List E))) fun
            | none => (c none).plain (qs t)
            | some (.inl a) => (c (some a)).plain (qs t)
            | some (.inr _) => .done := hp
          simp only [Hub.step, hp']
          have hb' : (Prog.read a fun x => f x >>= fun a => (pure (.inl a) : Prog D (A ⊕ List E))).step (s.plain qs).heap = _ := hb
          rw [hb', hb]
          cases ((Prog.read a f).step s.heap).map (fun x => (x.1 >>= fun a => (pure (.inl a) : Prog D (A ⊕ List E)), x.2)) <;> rfl
        | write a x f => simp only [Hub.step, hp]; rfl
        | alloc x f => simp only [Hub.step, hp]; rfl
      have e2 : s.step I Rd Lp t = match p.step s.heap with
          | none => s
          | some (q, h) => { s.to t (.reading i k q c) with heap := h } := by
        cases p with
        | ret x => exact absurd rfl (hne x)
        | _ => simp only [RHub.step, e]
      refine key [] ?_ ?_
      · rw [e2]; split <;> simp [RHub.to, RHub.put]
      · rw [e1, e2]
        cases p.step s.heap with
        | none => exact self
        | some x =>
          simp only [RHub.to, RHub.put, Hub.put, if_true, Option.map_some]
          rfl
    cases p with
    | ret x =>
      refine key [.answer t i k (some x)] (by simp [RHub.step, e, RHub.note, RHub.put, RHub.to]) ?_
      have hp' : ((s.plain qs).th t).phase = .reading i (.inl k) (.ret (.inl x)) fun
            | none => (c none).plain (qs t)
            | some (.inl a) => (c (some a)).plain (qs t)
            | some (.inr _) => .done := hp
      simp only [Hub.step, hp', RHub.step, e, hr, RHub.note, RHub.put, RHub.to, Hub.note, Hub.put, if_true]
      rfl
    | _ => exact hn (by intro x h; cases h)
  | taking ch p c => rw [e] at hc; exact hc.elim

end Verif.Pipe
