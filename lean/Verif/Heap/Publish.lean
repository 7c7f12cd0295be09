import Verif.Heap.Session
import Verif.Spec.Publish

/-!
# Goroutines sharing a variable

One variable holds a tree.  Goroutines take it from there at any time and read it.  A goroutine that has the lock may also make calls on the
trees it holds and put one of them into the variable.  Loading and storing the variable, taking and giving back the lock (`sync.Mutex`), and every access to a node
are single steps; a schedule says whose step comes next.  Nodes are allocated by the holder of the lock only.  As in `Interleave.lean` accesses
are sequentially consistent; `hub_sound` shows that no two goroutines touch a node at the same time with one of them writing.
-/

namespace Verif.Heap
open Prog
variable {D T O R K A : Type}

/-- What a goroutine does.  It may decide by the answers it gets. -/
inductive Act (O K A : Type) where
  | done
  | load (c : Act O K A)
  | drop (i : Nat) (c : Act O K A)
  | read (i : Nat) (k : K) (c : Option A → Act O K A)
  | lock (c : Act O K A)
  | call (op : SOp O) (c : Act O K A)
  | store (i : Nat) (c : Act O K A)
  | unlock (c : Act O K A)

/-- Where a goroutine is: between actions, within a call, or within a read. -/
inductive Phase (D O R K A : Type) where
  | idle (g : Act O K A)
  | calling (op : SOp O) (p : Prog D (List R)) (g : Act O K A)
  | reading (i : Nat) (k : K) (p : Prog D A) (c : Option A → Act O K A)

/-- A goroutine: the roots it holds and where it is. -/
structure Gor (D O R K A : Type) where
  roots : List R
  phase : Phase D O R K A

/-- Memory, the variable, the lock, the goroutines, and the record of events. -/
structure Hub (D T O R K A : Type) where
  heap : Heap D
  cur : R
  holder : Option T
  th : T → Gor D O R K A
  log : List (PEvent T O K A)

variable [DecidableEq T]

def Hub.put (s : Hub D T O R K A) (t : T) (g : Gor D O R K A) : Hub D T O R K A := { s with th := fun u => if u = t then g else s.th u }
def Hub.note (s : Hub D T O R K A) (e : PEvent T O K A) : Hub D T O R K A := { s with log := s.log ++ [e] }

/-- One step of goroutine `t`.  It lets its turn pass if it has ended, has failed, or waits for the lock. -/
def Hub.step (I : OImpl D O R) (Rd : K → R → Prog D A) (s : Hub D T O R K A) (t : T) : Hub D T O R K A :=
  match (s.th t).phase with
  | .idle .done => s
  | .idle (.load c) => (s.put t ⟨(s.th t).roots ++ [s.cur], .idle c⟩).note (.load t)
  | .idle (.drop i c) => (s.put t ⟨(s.th t).roots.eraseIdx i, .idle c⟩).note (.drop t i)
  | .idle (.read i k c) => match (s.th t).roots[i]? with
    | none => (s.put t ⟨(s.th t).roots, .idle (c none)⟩).note (.answer t i k none)
    | some r => s.put t ⟨(s.th t).roots, .reading i k (Rd k r) c⟩
  | .idle (.lock c) => match s.holder with
    | none => { (s.put t ⟨(s.th t).roots, .idle c⟩).note (.lock t) with holder := some t }
    | some _ => s
  | .idle (.call op c) => s.put t ⟨(s.th t).roots, .calling op (stepP I (s.th t).roots op) c⟩
  | .idle (.store i c) => { (s.put t ⟨(s.th t).roots, .idle c⟩).note (.store t i) with cur := ((s.th t).roots[i]?).getD s.cur }
  | .idle (.unlock c) => { (s.put t ⟨(s.th t).roots, .idle c⟩).note (.unlock t) with holder := none }
  | .calling op (.ret rs) g => (s.put t ⟨rs, .idle g⟩).note (.call t op)
  | .calling op p g => match p.step s.heap with
    | none => s
    | some (q, h) => { s.put t ⟨(s.th t).roots, .calling op q g⟩ with heap := h }
  | .reading i k (.ret a) c => (s.put t ⟨(s.th t).roots, .idle (c (some a))⟩).note (.answer t i k (some a))
  | .reading i k p c => match p.step s.heap with
    | none => s
    | some (q, h) => { s.put t ⟨(s.th t).roots, .reading i k q c⟩ with heap := h }

/-- A schedule. -/
def Hub.exec (I : OImpl D O R) (Rd : K → R → Prog D A) (s : Hub D T O R K A) : List T → Hub D T O R K A
  | [] => s
  | t :: ts => (s.step I Rd t).exec I Rd ts

/-- The start: the variable holds `r`, nobody has the lock or holds a tree. -/
def Hub.start (h : Heap D) (r : R) (act : T → Act O K A) : Hub D T O R K A := ⟨h, r, none, fun t => ⟨[], .idle (act t)⟩, []⟩

/-- The node the next step of a program writes or reads. -/
def Prog.touches {α : Type} : Prog D α → Option Nat
  | .write a _ _ => some a
  | .read a _ => some a
  | _ => none

/-- The node goroutine `t` writes in its next step. -/
def Hub.writes (s : Hub D T O R K A) (t : T) : Option Nat := match (s.th t).phase with
  | .idle _ => none
  | .calling _ p _ => p.writes
  | .reading _ _ p _ => p.writes

/-- The node goroutine `t` reads or writes in its next step. -/
def Hub.touches (s : Hub D T O R K A) (t : T) : Option Nat := match (s.th t).phase with
  | .idle _ => none
  | .calling _ p _ => p.touches
  | .reading _ _ p _ => p.touches

/-- Goroutine `t` has failed (a panic, or the loop bound of the model used up). -/
def Hub.failed (s : Hub D T O R K A) (t : T) : Prop := match (s.th t).phase with
  | .idle _ => False
  | .calling _ p _ => ∃ e, p = .stop e
  | .reading _ _ p _ => ∃ e, p = .stop e

/-- All trees held count as seen by others (origin 0). -/
def Book.flat (b : Book O) : Book O := ⟨1, b.vs.map fun v => (0, v.2)⟩

/-- What goroutines may do.  `lk`: has the lock.  `b`: the trees held; those with origin 0 may be seen by others.  Calls, stores and
unlocking need the lock; in-place calls are for trees started since the lock was taken and the variable last written; the lock is given
back in the end. -/
def Act.Legal (ok iok : List O → O → Prop) (P : K → List O → A → Prop) (lk : Bool) (b : Book O) : Act O K A → Prop
  | .done => lk = false
  | .load c => ∀ l, c.Legal ok iok P lk ⟨b.next, b.vs ++ [(0, l)]⟩
  | .drop i c => c.Legal ok iok P lk (b.step (.drop i))
  | .read i k c => match b.vs[i]? with
    | none => (c none).Legal ok iok P lk b
    | some v => ∀ a, P k v.2 a → (c (some a)).Legal ok iok P lk b
  | .lock c => lk = false ∧ c.Legal ok iok P true b.flat
  | .call op c => lk = true ∧ b.Legal2 ok iok op ∧ OwnInp 1 b op ∧ c.Legal ok iok P lk (b.step op)
  | .store i c => lk = true ∧ i < b.vs.length ∧ c.Legal ok iok P lk b.flat
  | .unlock c => lk = true ∧ c.Legal ok iok P false b.flat

/-! ## Invariant -/

/-- `hs` is what the memory `h` was at an earlier time, and nothing of it has changed. -/
structure Since (hs h : Heap D) : Prop where
  ok : hs.Ok
  next : hs.next ≤ h.next
  mem : ∀ a, a < hs.next → h.mem a = hs.mem a

/-- Since a time when the memory ended at or below `base`, root `r` has been the tree of chain `l`. -/
def Shown (I : OImpl D O R) (base m : Nat) (h : Heap D) (r : R) (l : List O) : Prop :=
  ∃ hs F, Since hs h ∧ hs.next ≤ base ∧ I.Obj hs r l F ∧ l.length ≤ m

/-- Memory may grow, and cells from `base` on may change. -/
structure Above (base : Nat) (h h' : Heap D) : Prop where
  next : h.next ≤ h'.next
  mem : ∀ a, a < base → h'.mem a = h.mem a

theorem Above.rfl' {base : Nat} {h : Heap D} : Above base h h := ⟨Nat.le_refl _, fun _ _ => rfl⟩

theorem Since.above {base : Nat} {hs h h' : Heap D} (hp : Since hs h) (hb : hs.next ≤ base) (ha : Above base h h') : Since hs h' :=
  ⟨hp.ok, Nat.le_trans hp.next ha.next, fun a h1 => by rw [ha.mem a (by omega), hp.mem a h1]⟩

theorem Shown.above {I : OImpl D O R} {base base' m m' : Nat} {h h' : Heap D} {r : R} {l : List O} (hs : Shown I base m h r l) (ha : Above base h h')
    (hb : base ≤ base') (hm : m ≤ m') : Shown I base' m' h' r l := by
  obtain ⟨g, F, h1, h2, h3, h4⟩ := hs
  exact ⟨g, F, h1.above h2 ha, by omega, h3, by omega⟩

theorem Shown.obj {I : OImpl D O R} {n base m : Nat} (hI : I.Lawful n) {h : Heap D} {r : R} {l : List O} (hs : Shown I base m h r l) :
    ∃ F, I.Obj h r l F ∧ (∀ a, F a → a < base) ∧ l.length ≤ m := by
  obtain ⟨g, F, h1, h2, h3, h4⟩ := hs
  exact ⟨F, hI.frame h3 h1.next fun a ha => h1.mem a (hI.lt h3 ha), fun a ha => by have := hI.lt h3 ha; omega, h4⟩

/-- The roots of a goroutine: with the lock as in histories, without it trees that never change. -/
def RootsInv (I : OImpl D O R) (base m : Nat) (h : Heap D) (lk : Bool) (rs : List R) (b : Book O) : Prop :=
  if lk then OInv I 1 base m ⟨h, rs⟩ b
  else rs.length = b.vs.length ∧ ∀ (i : Nat) r v, rs[i]? = some r → b.vs[i]? = some v → Shown I base m h r v.2

/-- One goroutine. -/
def GorInv (I : OImpl D O R) (P : K → List O → A → Prop) (base m : Nat) (h : Heap D) (lk : Bool) (g : Gor D O R K A) (b : Book O) : Prop :=
  match g.phase with
  | .idle c => c.Legal I.cowOk I.inpOk P lk b ∧ RootsInv I base m h lk g.roots b
  | .calling op p c => lk = true ∧ c.Legal I.cowOk I.inpOk P lk (b.step op) ∧
    wp (fun a => base ≤ a) p (fun rs h' => h'.Ok ∧ OInv I 1 base m ⟨h', rs⟩ (b.step op)) h
  | .reading i k p c => RootsInv I base m h lk g.roots b ∧ ∃ v, b.vs[i]? = some v ∧ (∀ a, P k v.2 a → (c (some a)).Legal I.cowOk I.inpOk P lk b) ∧
    ∃ hs, Since hs h ∧ (hs.next ≤ base ∨ lk = true) ∧ wp (fun _ => False) p (fun x h' => h' = hs ∧ P k v.2 x) hs

/-- All of it. -/
structure HubInv (I : OImpl D O R) (P : K → List O → A → Prop) (base m : Nat) (s : Hub D T O R K A) (bd : Board T O) (bk : T → Book O) : Prop where
  ok : s.heap.Ok
  low : base ≤ s.heap.next
  cur : Shown I base m s.heap s.cur bd.pub
  held : ∀ t, bd.held t = (bk t).vs.map (·.2)
  holder : bd.holder = s.holder
  gor : ∀ t, GorInv I P base m s.heap (decide (s.holder = some t)) (s.th t) (bk t)

theorem RootsInv.above {I : OImpl D O R} {base base' m m' : Nat} {h h' : Heap D} {rs : List R} {b : Book O} (hr : RootsInv I base m h false rs b)
    (ha : Above base h h') (hb : base ≤ base') (hm : m ≤ m') : RootsInv I base' m' h' false rs b := by
  simp only [RootsInv, Bool.false_eq_true, if_false] at hr ⊢
  exact ⟨hr.1, fun i r v h1 h2 => (hr.2 i r v h1 h2).above ha hb hm⟩

/-- A goroutine without the lock does not mind what happens from `base` on. -/
theorem GorInv.above {I : OImpl D O R} {P : K → List O → A → Prop} {base base' m m' : Nat} {h h' : Heap D} {g : Gor D O R K A} {b : Book O}
    (hg : GorInv I P base m h false g b) (ha : Above base h h') (hb : base ≤ base') (hm : m ≤ m') : GorInv I P base' m' h' false g b := by
  unfold GorInv at hg ⊢
  split at hg
  · exact ⟨hg.1, hg.2.above ha hb hm⟩
  · simp at hg
  · obtain ⟨h1, v, h2, h3, hs, h4, h5, h6⟩ := hg
    have h5 : hs.next ≤ base := by simpa using h5
    exact ⟨h1.above ha hb hm, v, h2, h3, hs, h4.above h5 ha, .inl (by omega), h6⟩

/-- With the lock: nobody else touches the memory. -/
theorem GorInv.more {I : OImpl D O R} {P : K → List O → A → Prop} {base m m' : Nat} {h : Heap D} {lk : Bool} {g : Gor D O R K A} {b : Book O}
    (hg : GorInv I P base m h lk g b) (hm : m ≤ m') : GorInv I P base m' h lk g b := by
  cases lk with
  | false => exact hg.above .rfl' (Nat.le_refl _) hm
  | true =>
    unfold GorInv at hg ⊢
    split at hg
    · refine ⟨hg.1, ?_⟩
      simp only [RootsInv, if_true] at hg ⊢
      exact hg.2.mono hm
    · exact ⟨hg.1, hg.2.1, wp_conseq hg.2.2 fun rs h' hx => ⟨hx.1, hx.2.mono hm⟩⟩
    · obtain ⟨h1, h2⟩ := hg
      refine ⟨?_, h2⟩
      simp only [RootsInv, if_true] at h1 ⊢
      exact h1.mono hm

/-- A read on an old memory: the next step is a read of one of its cells. -/
theorem read_next {α : Type} {G : α → Prop} {p : Prog D α} {hs : Heap D} (hw : wp (fun _ => False) p (fun x h' => h' = hs ∧ G x) hs) :
    (∃ x, p = .ret x ∧ G x) ∨ ∃ a k c, p = .read a k ∧ hs.mem a = some c ∧ wp (fun _ => False) (k c) (fun x h' => h' = hs ∧ G x) hs := by
  cases p with
  | ret x => exact .inl ⟨x, rfl, hw.2⟩
  | stop e => exact hw.elim
  | read a k => obtain ⟨c, h1, h2⟩ := hw; exact .inr ⟨a, k, c, rfl, h1, h2⟩
  | write a c k => exact hw.1.elim
  | alloc c k =>
    obtain ⟨x, h', _, ⟨e, _⟩, h1, _⟩ := wp_run (show wp _ (k hs.next) _ (hs.push c) from hw)
    subst e
    simp only [Heap.push] at h1
    omega

/-- One step of a call: it stays above `base`. -/
theorem call_next {α : Type} {base : Nat} {Q : α → Heap D → Prop} {p q : Prog D α} {h h' : Heap D} (hk : h.Ok) (hb : base ≤ h.next) (hw : wp (fun a => base ≤ a) p Q h)
    (hs : p.step h = some (q, h')) : wp (fun a => base ≤ a) q Q h' ∧ Above base h h' ∧ h'.Ok := by
  obtain ⟨h1, _, _, h2, h3⟩ := step_solo hw hs
  refine ⟨h1, ⟨h2, fun a ha => h3 a (by omega) (by omega)⟩, ?_⟩
  cases p with
  | ret x => cases hs
  | stop e => cases hs
  | read a k =>
    obtain ⟨c, h1, h2⟩ := hw
    simp only [Prog.step, h1, Option.some.injEq, Prod.mk.injEq] at hs
    obtain ⟨rfl, rfl⟩ := hs; exact hk
  | write a c k =>
    obtain ⟨_, ⟨c0, hc⟩, _⟩ := hw
    simp only [Prog.step, Option.some.injEq, Prod.mk.injEq] at hs
    obtain ⟨rfl, rfl⟩ := hs; exact hk.put hc c
  | alloc c k =>
    simp only [Prog.step, Option.some.injEq, Prod.mk.injEq] at hs
    obtain ⟨rfl, rfl⟩ := hs; exact hk.push c

theorem flat_vs (b : Book O) (i : Nat) : b.flat.vs[i]? = (b.vs[i]?).map fun v => (0, v.2) := by simp [Book.flat]

/-- Roots that never change, as a history. -/
theorem OInv.of_shown {I : OImpl D O R} {n base m : Nat} (hI : I.Lawful n) {h : Heap D} (hk : h.Ok) {rs : List R} {b : Book O}
    (hl : rs.length = b.vs.length) (hs : ∀ (i : Nat) r v, rs[i]? = some r → b.vs[i]? = some v → Shown I base m h r v.2) :
    OInv I 1 h.next m ⟨h, rs⟩ b.flat := by
  have key : ∀ (rs : List R) (vs : List (Nat × List O)), rs.length = vs.length →
      (∀ (i : Nat) r v, rs[i]? = some r → vs[i]? = some v → Shown I base m h r v.2) →
      ∃ Ts : List ((R × (Addr → Prop)) × Nat × List O), rs = Ts.map (fun t => t.1.1) ∧ (vs.map fun v => (0, v.2)) = Ts.map (·.2) ∧
        ∀ t ∈ Ts, I.Obj h t.1.1 t.2.2 t.1.2 ∧ t.2.1 = 0 ∧ t.2.2.length ≤ m := by
    intro rs
    induction rs with
    | nil =>
      intro vs hl _
      cases vs with
      | nil => exact ⟨[], rfl, rfl, by simp⟩
      | cons => simp at hl
    | cons r rs ih =>
      intro vs hl hs
      cases vs with
      | nil => simp at hl
      | cons v vs =>
        obtain ⟨Ts, h1, h2, h3⟩ := ih vs (by simpa using hl) fun i r v h1 h2 => hs (i + 1) r v (by simpa using h1) (by simpa using h2)
        obtain ⟨F, f1, _, f2⟩ := (hs 0 r v rfl rfl).obj hI
        refine ⟨((r, F), 0, v.2) :: Ts, by simp [← h1], by simp [← h2], ?_⟩
        intro t ht
        rcases List.mem_cons.1 ht with rfl | ht
        · exact ⟨f1, rfl, f2⟩
        · exact h3 t ht
  obtain ⟨Ts, h1, h2, h3⟩ := key rs b.vs hl hs
  refine ⟨Ts, ⟨Nat.le_refl _, by simp [Book.flat], fun t ht hn => by have := (h3 t ht).2.1; omega⟩, hk, h1, h2, fun t ht => ?_, fun t ht u hu hne => ?_⟩
  · obtain ⟨a, e, c⟩ := h3 t ht
    exact ⟨a, by simp [Book.flat, e], c⟩
  · exact absurd ((h3 t ht).2.1.trans (h3 u hu).2.1.symm) hne

/-- A history whose roots are from now on seen by others. -/
theorem OInv.flat {I : OImpl D O R} {base m : Nat} {h : Heap D} {rs : List R} {b : Book O} (hi : OInv I 1 base m ⟨h, rs⟩ b) :
    OInv I 1 h.next m ⟨h, rs⟩ b.flat ∧ rs.length = b.flat.vs.length ∧
      ∀ (i : Nat) r v, rs[i]? = some r → b.flat.vs[i]? = some v → Shown I h.next m h r v.2 := by
  obtain ⟨Ts, _, hk, h1, h2, h3, h4⟩ := hi
  simp only at h1
  refine ⟨⟨Ts.map fun t => (t.1, 0, t.2.2), ⟨Nat.le_refl _, by simp [Book.flat], ?_⟩, hk, ?_, ?_, ?_, ?_⟩, ?_, ?_⟩
  · intro t ht hn
    obtain ⟨u, _, rfl⟩ := List.mem_map.1 ht
    simp at hn
  · simp [h1]
  · simp [Book.flat, h2]
  · intro t ht
    obtain ⟨u, hu, rfl⟩ := List.mem_map.1 ht
    obtain ⟨a, _, c⟩ := h3 u hu
    exact ⟨a, by simp [Book.flat], c⟩
  · intro t ht u hu hne
    obtain ⟨_, _, rfl⟩ := List.mem_map.1 ht
    obtain ⟨_, _, rfl⟩ := List.mem_map.1 hu
    exact absurd rfl hne
  · simp [Book.flat, h1, h2]
  · intro i r v hr hv
    rw [flat_vs, h2, List.getElem?_map] at hv
    rw [h1, List.getElem?_map] at hr
    cases hT : Ts[i]? with
    | none => simp [hT] at hr
    | some u =>
      simp only [hT, Option.map_some, Option.some.injEq] at hr hv
      subst hr hv
      obtain ⟨a, _, c⟩ := h3 u (List.mem_of_getElem? hT)
      exact ⟨h, u.1.2, ⟨hk, Nat.le_refl _, fun _ _ => rfl⟩, Nat.le_refl _, a, c⟩

/-- A history with one more root that others see. -/
theorem OInv.load {I : OImpl D O R} {n base m : Nat} (hI : I.Lawful n) {h : Heap D} {rs : List R} {b : Book O} {r : R} {l : List O}
    (hi : OInv I 1 base m ⟨h, rs⟩ b) (hs : Shown I base m h r l) : OInv I 1 base m ⟨h, rs ++ [r]⟩ ⟨b.next, b.vs ++ [(0, l)]⟩ := by
  obtain ⟨Ts, ⟨g1, g2, g3⟩, hk, h1, h2, h3, h4⟩ := hi
  obtain ⟨F, f1, f2, f3⟩ := hs.obj hI
  simp only at h1
  have far : ∀ t ∈ Ts, t.2.1 ≠ 0 → ∀ x, ¬ (t.1.2 x ∧ F x) := by
    rintro t ht hne x ⟨x1, x2⟩
    have := g3 t ht (by omega) x x1
    have := f2 x x2
    omega
  refine ⟨Ts ++ [((r, F), 0, l)], ⟨g1, g2, ?_⟩, hk, by simp [h1], by simp [h2], ?_, ?_⟩
  · intro t ht hn
    rw [List.mem_append, List.mem_singleton] at ht
    rcases ht with ht | rfl
    · exact g3 t ht hn
    · simp at hn
  · intro t ht
    rw [List.mem_append, List.mem_singleton] at ht
    rcases ht with ht | rfl
    · exact h3 t ht
    · exact ⟨f1, by simp only; omega, f3⟩
  · intro t ht u hu hne x
    rw [List.mem_append, List.mem_singleton] at ht hu
    rcases ht with ht | rfl
    · rcases hu with hu | rfl
      · exact h4 t ht u hu hne x
      · exact far t ht hne x
    · rcases hu with hu | rfl
      · exact fun q => far u hu (fun e => hne e.symm) x ⟨q.2, q.1⟩
      · exact absurd rfl hne

/-! ## Every step keeps the invariant -/

theorem HubInv.next {I : OImpl D O R} {P : K → List O → A → Prop} {base base' m m' : Nat} {s s' : Hub D T O R K A} {bd bd' : Board T O} {bk : T → Book O}
    (hi : HubInv I P base m s bd bk) (t : T) (b' : Book O) (hm : m ≤ m') (hth : ∀ u, u ≠ t → s'.th u = s.th u) (hb : base ≤ base') (ha : Above base s.heap s'.heap)
    (hh : ∀ u, u ≠ t → (s'.holder = some u ↔ s.holder = some u)) (hx : s'.heap = s.heap ∧ base' = base ∨ ∀ u, u ≠ t → s.holder ≠ some u)
    (hok : s'.heap.Ok) (hlow : base' ≤ s'.heap.next) (hcur : Shown I base' m' s'.heap s'.cur bd'.pub)
    (hheld : ∀ u, bd'.held u = if u = t then b'.vs.map (·.2) else bd.held u) (hhol : bd'.holder = s'.holder)
    (hg : GorInv I P base' m' s'.heap (decide (s'.holder = some t)) (s'.th t) b') :
    HubInv I P base' m' s' bd' (fun u => if u = t then b' else bk u) := by
  refine ⟨hok, hlow, hcur, fun u => ?_, hhol, fun u => ?_⟩
  · rw [hheld u]
    by_cases e : u = t
    · simp [e]
    · simp [e, hi.held u]
  · by_cases e : u = t
    · subst e; simpa using hg
    · simp only [if_neg e, hth u e]
      have h0 := hi.gor u
      rcases hx with ⟨x1, x2⟩ | x
      · rw [x1, x2, decide_eq_decide.2 (hh u e)]
        exact h0.more hm
      · have : decide (s.holder = some u) = false := by simpa using x u e
        rw [decide_eq_decide.2 (hh u e), this]
        rw [this] at h0
        exact h0.above ha hb hm

theorem chain_get {b : Book O} {i : Nat} {v : Nat × List O} (h : b.vs[i]? = some v) : (b.vs.map (·.2))[i]? = some v.2 := by simp [h]

theorem afterCall_eq (b : Book O) (op : SOp O) : afterCall (b.vs.map (·.2)) op = (b.step op).vs.map (·.2) := by
  cases op with
  | fresh => simp [afterCall, Book.step]
  | cow i o =>
    simp only [afterCall, Book.step, List.getElem?_map]
    cases b.vs[i]? <;> simp
  | inp i o =>
    simp only [afterCall, Book.step, List.getElem?_map]
    cases b.vs[i]? <;> simp [List.map_set]
  | drop i => simp [afterCall, Book.step, map_eraseIdx]

theorem RootsInv.get {I : OImpl D O R} {base m : Nat} {h : Heap D} {lk : Bool} {rs : List R} {b : Book O} (hr : RootsInv I base m h lk rs b) (i : Nat) :
    (rs[i]? = none ∧ b.vs[i]? = none) ∨ ∃ r v, rs[i]? = some r ∧ b.vs[i]? = some v := by
  have hl : rs.length = b.vs.length := by
    cases lk with
    | false => simpa [RootsInv] using hr.1
    | true =>
      simp only [RootsInv, if_true] at hr
      obtain ⟨Ts, _, _, h1, h2, _⟩ := hr
      simp only at h1
      simp [h1, h2]
  rcases Nat.lt_or_ge i rs.length with h | h
  · exact .inr ⟨rs[i], b.vs[i]'(by omega), by simp [h], by simp [show i < b.vs.length by omega]⟩
  · exact .inl ⟨by simpa using h, by simp; omega⟩

theorem OInv.get {I : OImpl D O R} {n0 base m : Nat} {h : Heap D} {rs : List R} {b : Book O} (hi : OInv I n0 base m ⟨h, rs⟩ b) {i : Nat} {r : R} {v : Nat × List O}
    (hr : rs[i]? = some r) (hv : b.vs[i]? = some v) : ∃ F, I.Obj h r v.2 F ∧ v.2.length ≤ m := by
  obtain ⟨Ts, _, _, h1, h2, h3, _⟩ := hi
  simp only at h1
  rw [h1, List.getElem?_map] at hr
  rw [h2, List.getElem?_map] at hv
  cases hT : Ts[i]? with
  | none => simp [hT] at hr
  | some u =>
    simp only [hT, Option.map_some, Option.some.injEq] at hr hv
    subst hr hv
    obtain ⟨a, _, c⟩ := h3 u (List.mem_of_getElem? hT)
    exact ⟨u.1.2, a, c⟩

theorem OInv.ok {I : OImpl D O R} {n0 base m : Nat} {s : OStore D R} {b : Book O} (hi : OInv I n0 base m s b) : s.heap.Ok := hi.choose_spec.2.1

theorem OInv.low {I : OImpl D O R} {n0 base m : Nat} {s : OStore D R} {b : Book O} (hi : OInv I n0 base m s b) : base ≤ s.heap.next := hi.choose_spec.1.1

/-- A call begins. -/
theorem call_begin {I : OImpl D O R} {n base m : Nat} (hI : I.Lawful n) (hm : m < n) {h : Heap D} {rs : List R} {b : Book O} (hi : OInv I 1 base m ⟨h, rs⟩ b) (op : SOp O)
    (hl : b.Legal2 I.cowOk I.inpOk op) (ho : OwnInp 1 b op) :
    wp (fun a => base ≤ a) (stepP I rs op) (fun rs' h' => h'.Ok ∧ OInv I 1 base (m + 1) ⟨h', rs'⟩ (b.step op)) h := by
  obtain ⟨s', e1, i1, w1⟩ := ostep_inv hI hm hi op hl ho
  refine wp_strengthen w1 fun rs' h' hr _ => ?_
  rw [stepP_run I ⟨h, rs⟩ op, e1] at hr
  cases hr
  exact ⟨i1.ok, i1⟩

theorem OInv.drop {I : OImpl D O R} {n0 base m : Nat} {h : Heap D} {rs : List R} {b : Book O} (hi : OInv I n0 base m ⟨h, rs⟩ b) (i : Nat) :
    OInv I n0 base m ⟨h, rs.eraseIdx i⟩ (b.step (.drop i)) := by
  obtain ⟨T, ⟨g1, g2, g3⟩, hk, h1, h2, h3, h4⟩ := hi
  have h1 : rs = _ := h1
  exact ⟨T.eraseIdx i, ⟨g1, g2, fun t ht => g3 t (List.mem_of_mem_eraseIdx ht)⟩, hk, by simp [h1, map_eraseIdx], by simp [Book.step, h2, map_eraseIdx],
    fun t ht => h3 t (List.mem_of_mem_eraseIdx ht), fun t ht u hu => h4 t (List.mem_of_mem_eraseIdx ht) u (List.mem_of_mem_eraseIdx hu)⟩

/-- One step.  `m` bounds the length of the chains; it has to grow only when a call begins. -/
theorem hub_step_base {I : OImpl D O R} {n base m m' : Nat} (hI : I.Lawful n) (Rd : K → R → Prog D A) (P : K → List O → A → Prop)
    (hm : m ≤ n) (hmm : m ≤ m') {s : Hub D T O R K A} {bd : Board T O} {bk : T → Book O} (hi : HubInv I P base m s bd bk) (t : T)
    (hR : ∀ i k c, (s.th t).phase = .idle (.read i k c) → ∀ h r l F, l.length ≤ n → I.Obj h r l F → wp (fun _ => False) (Rd k r) (fun x h' => h' = h ∧ P k l x) h)
    (hc : ∀ op c, (s.th t).phase = .idle (.call op c) → m < n ∧ m < m') :
    ∃ base' bk' es, (base ≤ base' ∧ ∀ i c, (s.th t).phase = .idle (.store i c) → s.heap.next ≤ base') ∧ (s.step I Rd t).log = s.log ++ es ∧ bd.FitsAll P es ∧
      HubInv I P base' m' (s.step I Rd t) (bd.replay es) bk' := by
  have hg := hi.gor t
  have same : (∀ i c, (s.th t).phase ≠ .idle (.store i c)) → base ≤ base ∧ ∀ i c, (s.th t).phase = .idle (.store i c) → s.heap.next ≤ base :=
    fun h => ⟨Nat.le_refl _, fun i c e => absurd e (h i c)⟩
  have hcur1 : Shown I base m' s.heap s.cur bd.pub := hi.cur.above .rfl' (Nat.le_refl _) (by omega)
  have hstay : ∀ {g : Gor D O R K A} {b' : Book O} {bd' : Board T O}, GorInv I P base m' s.heap (decide (s.holder = some t)) g b' → bd'.pub = bd.pub → bd'.holder = bd.holder →
      (∀ u, bd'.held u = if u = t then b'.vs.map (·.2) else bd.held u) → ∀ log, HubInv I P base m' { s.put t g with log := log } bd' (fun u => if u = t then b' else bk u) := by
    intro g b' bd' h1 h2 h3 h4 log
    refine hi.next t b' (by omega) (fun u hu => by simp [Hub.put, hu]) (Nat.le_refl _) .rfl' (fun u _ => Iff.rfl) (.inl ⟨rfl, rfl⟩) hi.ok hi.low ?_ h4 (h3.trans hi.holder) ?_
    · rw [h2]; exact hcur1
    · have e : (s.put t g).th t = g := by simp [Hub.put]
      show GorInv I P base m' s.heap (decide (s.holder = some t)) ((s.put t g).th t) b'
      rw [e]; exact h1
  have hsame : ∀ u, bd.held u = if u = t then (bk t).vs.map (·.2) else bd.held u := by
    intro u
    by_cases e : u = t
    · subst e; simp [hi.held u]
    · simp [e]
  have hnop : HubInv I P base m' s bd bk := ⟨hi.ok, hi.low, hcur1, hi.held, hi.holder, fun u => (hi.gor u).more (by omega)⟩
  unfold Hub.step
  unfold GorInv at hg
  split
  · rename_i hp
    exact ⟨base, bk, [], same (fun i c h => by rw [hp] at h; cases h), by simp, trivial, hnop⟩
  · rename_i c hp
    rw [hp] at hg
    refine ⟨base, _, [.load t], same (fun i c h => by rw [hp] at h; cases h), rfl, ⟨trivial, trivial⟩, hstay (bd' := bd.replay [.load t]) (b' := ⟨(bk t).next, (bk t).vs ++ [(0, bd.pub)]⟩) ?_ rfl rfl ?_ _⟩
    · refine ⟨hg.1 bd.pub, ?_⟩
      have hroots := hg.2
      cases hlk : decide (s.holder = some t) with
      | true =>
        simp only [hlk, RootsInv, if_true] at hroots ⊢
        exact (hroots.mono (by omega)).load hI hcur1
      | false =>
        simp only [hlk, RootsInv, Bool.false_eq_true, if_false] at hroots ⊢
        refine ⟨by simp [hroots.1], fun i r v h1 h2 => ?_⟩
        rw [List.getElem?_append] at h1 h2
        rw [hroots.1] at h1
        split at h1
        · rename_i hlt
          rw [if_pos hlt] at h2
          exact (hroots.2 i r v h1 h2).above .rfl' (Nat.le_refl _) (by omega)
        · rename_i hlt
          rw [if_neg hlt] at h2
          have : i - (bk t).vs.length = 0 := by
            rcases Nat.eq_zero_or_pos (i - (bk t).vs.length) with h | h
            · exact h
            · rw [List.getElem?_eq_none (by simp; omega)] at h1; cases h1
          rw [this] at h1 h2
          simp only [List.getElem?_cons_zero, Option.some.injEq] at h1 h2
          subst h1 h2
          exact hcur1
    · intro u
      simp only [Board.replay, Board.step, Board.setHeld]
      by_cases e : u = t
      · subst e; simp [hi.held u]
      · simp [e]
  · rename_i i c hp
    rw [hp] at hg
    refine ⟨base, _, [.drop t i], same (fun i c h => by rw [hp] at h; cases h), rfl, ⟨trivial, trivial⟩, hstay (bd' := bd.replay [.drop t i]) (b' := (bk t).step (.drop i)) ?_ rfl rfl ?_ _⟩
    · refine ⟨hg.1, ?_⟩
      have hroots := hg.2
      cases hlk : decide (s.holder = some t) with
      | true =>
        simp only [hlk, RootsInv, if_true] at hroots ⊢
        exact (hroots.drop i).mono hmm
      | false =>
        simp only [hlk, RootsInv, Bool.false_eq_true, if_false] at hroots ⊢
        refine ⟨by simp [Book.step, List.length_eraseIdx, hroots.1], fun j r v h1 h2 => ?_⟩
        simp only [Book.step, List.getElem?_eraseIdx] at h1 h2
        split at h1
        · rename_i hlt
          rw [if_pos hlt] at h2
          exact (hroots.2 j r v h1 h2).above .rfl' (Nat.le_refl _) (by omega)
        · rename_i hlt
          rw [if_neg hlt] at h2
          exact (hroots.2 (j + 1) r v h1 h2).above .rfl' (Nat.le_refl _) (by omega)
    · intro u
      simp only [Board.replay, Board.step, Board.setHeld]
      by_cases e : u = t
      · subst e; simp [hi.held u, Book.step, map_eraseIdx]
      · simp [e]
  · rename_i i k c hp
    rw [hp] at hg
    obtain ⟨hleg, hroots⟩ := hg
    have hroots' : RootsInv I base m' s.heap (decide (s.holder = some t)) (s.th t).roots (bk t) := by
      have : GorInv I P base m s.heap (decide (s.holder = some t)) ⟨(s.th t).roots, .idle (.read i k c)⟩ (bk t) := ⟨hleg, hroots⟩
      exact (this.more hmm).2
    rcases hroots.get i with ⟨e1, e2⟩ | ⟨r, v, e1, e2⟩
    · simp only [Act.Legal, e2] at hleg
      rw [e1]
      refine ⟨base, _, [.answer t i k none], same (fun i c h => by rw [hp] at h; cases h), rfl, ⟨?_, trivial⟩, hstay (g := ⟨(s.th t).roots, .idle (c none)⟩) (b' := bk t) ⟨hleg, hroots'⟩ rfl rfl hsame _⟩
      simp [Board.Fits, hi.held t, e2]
    · simp only [Act.Legal, e2] at hleg
      rw [e1]
      refine ⟨base, _, [], same (fun i c h => by rw [hp] at h; cases h), by simp [Hub.put], trivial, hstay (b' := bk t) ?_ rfl rfl hsame s.log⟩
      refine ⟨hroots', v, e2, hleg, ?_⟩
      cases hlk : decide (s.holder = some t) with
      | true =>
        simp only [hlk, RootsInv, if_true] at hroots
        obtain ⟨F, f1, f2⟩ := hroots.get e1 e2
        exact ⟨s.heap, ⟨hi.ok, Nat.le_refl _, fun _ _ => rfl⟩, .inr rfl, hR _ _ _ hp s.heap r v.2 F (by omega) f1⟩
      | false =>
        simp only [hlk, RootsInv, Bool.false_eq_true, if_false] at hroots
        obtain ⟨hs, F, f1, f2, f3, f4⟩ := hroots.2 i r v e1 e2
        exact ⟨hs, f1, .inl f2, hR _ _ _ hp hs r v.2 F (by omega) f3⟩
  · rename_i c hp
    rw [hp] at hg
    obtain ⟨⟨hlk, hleg⟩, hroots⟩ := hg
    cases hh : s.holder with
    | some u => exact ⟨base, bk, [], same (fun i c h => by rw [hp] at h; cases h), by simp, trivial, hnop⟩
    | none =>
      simp only [hlk, RootsInv, Bool.false_eq_true, if_false] at hroots
      refine ⟨s.heap.next, _, [.lock t], ⟨hi.low, fun _ _ _ => Nat.le_refl _⟩, rfl, ⟨by simp [Board.Fits, hi.holder, hh], trivial⟩, hi.next t (bk t).flat (by omega) (fun u hu => by simp [Hub.put, Hub.note, hu]) hi.low
        .rfl' (fun u hu => ?_) (.inr fun u _ => by simp [hh]) hi.ok (Nat.le_refl _) ?_ (fun u => ?_) rfl ?_⟩
      · have : ¬ t = u := fun e => hu e.symm
        simp [hh, this]
      · exact hcur1.above .rfl' hi.low (Nat.le_refl _)
      · simp only [Board.replay, Board.step]
        by_cases e : u = t
        · subst e; simp [hi.held u, Book.flat]
        · simp [e]
      · simp only [Hub.put, Hub.note, decide_true, if_true, GorInv]
        refine ⟨hleg, ?_⟩
        simp only [RootsInv, if_true]
        exact (OInv.of_shown hI hi.ok hroots.1 hroots.2).mono (by omega)
  · rename_i op c hp
    rw [hp] at hg
    obtain ⟨⟨hlk, h1, h2, h3⟩, hroots⟩ := hg
    refine ⟨base, _, [], same (fun i c h => by rw [hp] at h; cases h), by simp [Hub.put], trivial, hstay (b' := bk t) ?_ rfl rfl hsame s.log⟩
    simp only [hlk, RootsInv, if_true] at hroots
    obtain ⟨c1, c2⟩ := hc op c hp
    exact ⟨hlk, h3, wp_conseq (call_begin hI c1 hroots op h1 h2) fun rs h' hx => ⟨hx.1, hx.2.mono c2⟩⟩
  · rename_i i c hp
    rw [hp] at hg
    obtain ⟨⟨hlk, h1, h2⟩, hroots⟩ := hg
    have hh : s.holder = some t := by simpa using hlk
    simp only [hlk, RootsInv, if_true] at hroots
    obtain ⟨f1, f2, f3⟩ := hroots.flat
    have hroots0 : RootsInv I base m s.heap true (s.th t).roots (bk t) := by simp only [RootsInv, if_true]; exact hroots
    rcases hroots0.get i with ⟨e1, e2⟩ | ⟨r, v, e1, e2⟩
    · simp [h1] at e2
    have e3 : (bk t).flat.vs[i]? = some (0, v.2) := by rw [flat_vs, e2]; rfl
    refine ⟨s.heap.next, _, [.store t i], ⟨hi.low, fun _ _ _ => Nat.le_refl _⟩, rfl, ⟨⟨by simp [hi.holder, hh], by simpa [hi.held t] using h1⟩, trivial⟩, hi.next t (bk t).flat (by omega) (fun u hu => by simp [Hub.put, Hub.note, hu]) hi.low
        .rfl' (fun u hu => Iff.rfl) (.inr fun u hu => by rw [hh]; simpa using fun e => hu e.symm) hi.ok (Nat.le_refl _) ?_ (fun u => ?_) hi.holder ?_⟩
    · simp only [e1, Option.getD_some, Board.replay, Board.step, hi.held t, chain_get e2]
      exact (f3 i r _ e1 e3).above .rfl' (Nat.le_refl _) (by omega)
    · simp only [Board.replay, Board.step]
      by_cases e : u = t
      · subst e; simp [hi.held u, Book.flat]
      · simp [e]
    · simp only [Hub.put, Hub.note, if_true, GorInv]
      refine ⟨h2, ?_⟩
      have := f1.mono hmm
      simpa [RootsInv, hh] using this
  · rename_i c hp
    rw [hp] at hg
    obtain ⟨⟨hlk, h2⟩, hroots⟩ := hg
    have hh : s.holder = some t := by simpa using hlk
    simp only [hlk, RootsInv, if_true] at hroots
    obtain ⟨f1, f2, f3⟩ := hroots.flat
    refine ⟨s.heap.next, _, [.unlock t], ⟨hi.low, fun _ _ _ => Nat.le_refl _⟩, rfl, ⟨by simp [Board.Fits, hi.holder, hh], trivial⟩, hi.next t (bk t).flat (by omega) (fun u hu => by simp [Hub.put, Hub.note, hu]) hi.low
        .rfl' (fun u hu => ?_) (.inr fun u hu => by rw [hh]; simpa using fun e => hu e.symm) hi.ok (Nat.le_refl _) ?_ (fun u => ?_) rfl ?_⟩
    · have : ¬ t = u := fun e => hu e.symm
      simp [hh, this]
    · exact hcur1.above .rfl' hi.low (Nat.le_refl _)
    · simp only [Board.replay, Board.step]
      by_cases e : u = t
      · subst e; simp [hi.held u, Book.flat]
      · simp [e]
    · simp only [Hub.put, Hub.note, if_true, GorInv]
      refine ⟨by simpa using h2, ?_⟩
      simp only [RootsInv]
      exact ⟨f2, fun i r v e1 e2 => (f3 i r v e1 e2).above .rfl' (Nat.le_refl _) (by omega)⟩
  · rename_i op rs g hp
    rw [hp] at hg
    obtain ⟨hlk, h1, h2⟩ := hg
    have hh : s.holder = some t := by simpa using hlk
    refine ⟨base, _, [.call t op], same (fun i c h => by rw [hp] at h; cases h), rfl, ⟨by simp [Board.Fits, hi.holder, hh], trivial⟩, hstay (bd' := bd.replay [.call t op]) (b' := (bk t).step op) ?_ rfl rfl ?_ _⟩
    · refine ⟨h1, ?_⟩
      simp only [hlk, RootsInv, if_true]
      exact h2.2.mono (by omega)
    · intro u
      simp only [Board.replay, Board.step, Board.setHeld]
      by_cases e : u = t
      · subst e; simp [hi.held u, afterCall_eq]
      · simp [e]
  · rename_i op p g hne hp
    rw [hp] at hg
    obtain ⟨hlk, h1, h2⟩ := hg
    have hh : s.holder = some t := by simpa using hlk
    cases hs : p.step s.heap with
    | none => exact ⟨base, bk, [], same (fun i c h => by rw [hp] at h; cases h), by simp, trivial, hnop⟩
    | some qh =>
      obtain ⟨q, h'⟩ := qh
      obtain ⟨c1, c2, c3⟩ := call_next hi.ok hi.low h2 hs
      refine ⟨base, _, [], same (fun i c h => by rw [hp] at h; cases h), by simp [Hub.put], trivial, hi.next t (bk t) (by omega) (fun u hu => by simp [Hub.put, hu]) (Nat.le_refl _) c2 (fun u hu => Iff.rfl)
        (.inr fun u hu => by rw [hh]; simpa using fun e => hu e.symm) c3 (Nat.le_trans hi.low c2.next) (hcur1.above c2 (Nat.le_refl _) (Nat.le_refl _)) hsame hi.holder ?_⟩
      simp only [Hub.put, if_true, GorInv]
      exact ⟨hlk, h1, wp_conseq c1 fun rs h' hx => ⟨hx.1, hx.2.mono (by omega)⟩⟩
  · rename_i i k a c hp
    rw [hp] at hg
    obtain ⟨hroots, v, h1, h2, hs, h3, h4, h5⟩ := hg
    have hroots' : RootsInv I base m' s.heap (decide (s.holder = some t)) (s.th t).roots (bk t) := by
      have : GorInv I P base m s.heap (decide (s.holder = some t)) ⟨(s.th t).roots, .idle (c (some a))⟩ (bk t) := ⟨h2 a h5.2, hroots⟩
      exact (this.more hmm).2
    refine ⟨base, _, [.answer t i k (some a)], same (fun i c h => by rw [hp] at h; cases h), rfl, ⟨?_, trivial⟩, hstay (g := ⟨(s.th t).roots, .idle (c (some a))⟩) (b' := bk t) ⟨h2 a h5.2, hroots'⟩ rfl rfl hsame _⟩
    simp only [Board.Fits, hi.held t, chain_get h1]
    exact ⟨a, rfl, h5.2⟩
  · rename_i i k p c hne hp
    rw [hp] at hg
    have hg0 := hg
    obtain ⟨hroots, v, h1, h2, hs, h3, h4, h5⟩ := hg
    rcases read_next h5 with ⟨x, rfl, _⟩ | ⟨a, kk, c0, rfl, r1, r2⟩
    · exact absurd rfl (hne x)
    · have e : s.heap.mem a = some c0 := by rw [h3.mem a (h3.ok.lt r1), r1]
      simp only [Prog.step, e]
      refine ⟨base, _, [], same (fun i c h => by rw [hp] at h; cases h), by simp [Hub.put], trivial, hstay (b' := bk t) ?_ rfl rfl hsame s.log⟩
      have : GorInv I P base m s.heap (decide (s.holder = some t)) ⟨(s.th t).roots, .reading i k (kk c0) c⟩ (bk t) := ⟨hroots, v, h1, h2, hs, h3, h4, r2⟩
      exact this.more hmm

/-- The same, less what a layer above needs. -/
theorem hub_step {I : OImpl D O R} {n base m m' : Nat} (hI : I.Lawful n) (Rd : K → R → Prog D A) (P : K → List O → A → Prop)
    (hR : ∀ k h r l F, l.length ≤ n → I.Obj h r l F → wp (fun _ => False) (Rd k r) (fun x h' => h' = h ∧ P k l x) h)
    (hm : m ≤ n) (hmm : m ≤ m') {s : Hub D T O R K A} {bd : Board T O} {bk : T → Book O} (hi : HubInv I P base m s bd bk) (t : T)
    (hc : ∀ op c, (s.th t).phase = .idle (.call op c) → m < n ∧ m < m') :
    ∃ base' bk' es, (s.step I Rd t).log = s.log ++ es ∧ bd.FitsAll P es ∧ HubInv I P base' m' (s.step I Rd t) (bd.replay es) bk' := by
  obtain ⟨b, k, es, _, h1, h2, h3⟩ := hub_step_base hI Rd P hm hmm hi t (fun _ k _ _ => hR k) hc
  exact ⟨b, k, es, h1, h2, h3⟩

theorem hub_exec {I : OImpl D O R} {n base m : Nat} (hI : I.Lawful n) (Rd : K → R → Prog D A) (P : K → List O → A → Prop)
    (hR : ∀ k h r l F, l.length ≤ n → I.Obj h r l F → wp (fun _ => False) (Rd k r) (fun x h' => h' = h ∧ P k l x) h)
    (sched : List T) (hm : m + sched.length ≤ n) {s : Hub D T O R K A} {bd : Board T O} {bk : T → Book O} (hi : HubInv I P base m s bd bk) :
    ∃ base' bk' es, (s.exec I Rd sched).log = s.log ++ es ∧ bd.FitsAll P es ∧ HubInv I P base' (m + sched.length) (s.exec I Rd sched) (bd.replay es) bk' := by
  induction sched generalizing s bd bk base m with
  | nil => exact ⟨base, bk, [], by simp [Hub.exec], trivial, hi⟩
  | cons t ts ih =>
    simp only [List.length_cons] at hm
    obtain ⟨b1, k1, e1, l1, f1, i1⟩ := hub_step (m' := m + 1) hI Rd P hR (by omega) (by omega) hi t (fun _ _ _ => ⟨by omega, by omega⟩)
    obtain ⟨b2, k2, e2, l2, f2, i2⟩ := ih (by omega) i1
    refine ⟨b2, k2, e1 ++ e2, ?_, ?_, ?_⟩
    · simp only [Hub.exec]; rw [l2, l1, List.append_assoc]
    · rw [Board.fitsAll_append]; exact ⟨f1, f2⟩
    · rw [Board.replay_append, List.length_cons, Nat.add_comm ts.length 1, ← Nat.add_assoc]; exact i2

/-- A step leaves the memory below `base`, and without the lock all of it. -/
theorem hub_step_heap {I : OImpl D O R} {base m : Nat} (Rd : K → R → Prog D A) (P : K → List O → A → Prop)
    {s : Hub D T O R K A} {bd : Board T O} {bk : T → Book O} (hi : HubInv I P base m s bd bk) (t : T) :
    Above base s.heap (s.step I Rd t).heap ∧ (s.holder ≠ some t → (s.step I Rd t).heap = s.heap) := by
  have hg := hi.gor t
  have key : (s.step I Rd t).heap = s.heap → Above base s.heap (s.step I Rd t).heap ∧ (s.holder ≠ some t → (s.step I Rd t).heap = s.heap) := by
    intro h; exact ⟨by rw [h]; exact .rfl', fun _ => h⟩
  cases hp : (s.th t).phase with
  | idle g =>
    apply key
    cases g with
    | done => simp only [Hub.step, hp]
    | load c => simp only [Hub.step, hp]; rfl
    | drop i c => simp only [Hub.step, hp]; rfl
    | read i k c =>
      simp only [Hub.step, hp]
      cases (s.th t).roots[i]? <;> rfl
    | lock c =>
      simp only [Hub.step, hp]
      cases s.holder <;> rfl
    | call op c => simp only [Hub.step, hp]; rfl
    | store i c => simp only [Hub.step, hp]; rfl
    | unlock c => simp only [Hub.step, hp]; rfl
  | calling op p g =>
    unfold GorInv at hg
    rw [hp] at hg
    have hh : s.holder = some t := by simpa using hg.1
    cases hs : p.step s.heap with
    | none =>
      apply key
      cases p <;> simp [Hub.step, hp, hs, Hub.note, Hub.put]
    | some qh =>
      obtain ⟨c1, c2, c3⟩ := call_next hi.ok hi.low hg.2.2 (show p.step s.heap = some (qh.1, qh.2) from hs)
      have e : (s.step I Rd t).heap = qh.2 := by
        cases p with
        | ret x => cases hs
        | stop x => cases hs
        | read a k => simp only [Hub.step, hp, hs]
        | write a c k => simp only [Hub.step, hp, hs]
        | alloc c k => simp only [Hub.step, hp, hs]
      rw [e]
      exact ⟨c2, fun h => absurd hh h⟩
  | reading i k p c =>
    unfold GorInv at hg
    rw [hp] at hg
    obtain ⟨_, v, _, _, hs, h3, h4, h5⟩ := hg
    apply key
    rcases read_next h5 with ⟨x, rfl, _⟩ | ⟨a, kk, c0, rfl, r1, r2⟩
    · simp [Hub.step, hp, Hub.note, Hub.put]
    · have e : s.heap.mem a = some c0 := by rw [h3.mem a (h3.ok.lt r1), r1]
      simp [Hub.step, hp, Prog.step, e, Hub.put]

/-- Turns a read still needs. -/
theorem left_since {α : Type} {G : α → Prop} {p : Prog D α} {hs h : Heap D} (hw : wp (fun _ => False) p (fun x h' => h' = hs ∧ G x) hs) (h1 : Since hs h) :
    p.left h = p.left hs := by
  induction p with
  | ret x => rfl
  | stop e => rfl
  | read a k ih =>
    obtain ⟨c, c1, c2⟩ := hw
    have : h.mem a = some c := by rw [h1.mem a (h1.ok.lt c1), c1]
    simp only [Prog.left, this, c1]
    rw [ih c c2]
  | write a c k => exact hw.1.elim
  | alloc c k =>
    rcases read_next hw with ⟨x, h, _⟩ | ⟨_, _, _, h, _⟩ <;> cases h

theorem step_other {I : OImpl D O R} (Rd : K → R → Prog D A) (s : Hub D T O R K A) {t u : T} (h : u ≠ t) : (s.step I Rd t).th u = s.th u := by
  cases hp : (s.th t).phase with
  | idle g =>
    cases g with
    | done => simp only [Hub.step, hp]
    | load c => simp [Hub.step, hp, Hub.note, Hub.put, h]
    | drop i c => simp [Hub.step, hp, Hub.note, Hub.put, h]
    | read i k c =>
      simp only [Hub.step, hp]
      cases (s.th t).roots[i]? <;> simp [Hub.note, Hub.put, h]
    | lock c =>
      simp only [Hub.step, hp]
      cases s.holder <;> simp [Hub.note, Hub.put, h]
    | call op c => simp [Hub.step, hp, Hub.put, h]
    | store i c => simp [Hub.step, hp, Hub.note, Hub.put, h]
    | unlock c => simp [Hub.step, hp, Hub.note, Hub.put, h]
  | calling op p g =>
    cases p with
    | ret x => simp [Hub.step, hp, Hub.note, Hub.put, h]
    | stop e => simp [Hub.step, hp, Prog.step]
    | read a k =>
      simp only [Hub.step, hp, Prog.step]
      cases s.heap.mem a <;> simp [Hub.put, h]
    | write a c k => simp [Hub.step, hp, Prog.step, Hub.put, h]
    | alloc c k => simp [Hub.step, hp, Prog.step, Hub.put, h]
  | reading i k p g =>
    cases p with
    | ret x => simp [Hub.step, hp, Hub.note, Hub.put, h]
    | stop e => simp [Hub.step, hp, Prog.step]
    | read a k =>
      simp only [Hub.step, hp, Prog.step]
      cases s.heap.mem a <;> simp [Hub.put, h]
    | write a c k => simp [Hub.step, hp, Prog.step, Hub.put, h]
    | alloc c k => simp [Hub.step, hp, Prog.step, Hub.put, h]

/-- A read ends after as many turns as it needs alone, whatever the others do. -/
theorem hub_read {I : OImpl D O R} {n base m : Nat} (hI : I.Lawful n) (Rd : K → R → Prog D A) (P : K → List O → A → Prop)
    (hR : ∀ k h r l F, l.length ≤ n → I.Obj h r l F → wp (fun _ => False) (Rd k r) (fun x h' => h' = h ∧ P k l x) h)
    (sched : List T) (hm : m + sched.length ≤ n) {s : Hub D T O R K A} {bd : Board T O} {bk : T → Book O} (hi : HubInv I P base m s bd bk)
    {t : T} {i : Nat} {k : K} {p : Prog D A} {c : Option A → Act O K A} (hp : (s.th t).phase = .reading i k p c) (hc : p.left s.heap < sched.count t) :
    ∃ a es, (s.exec I Rd sched).log = s.log ++ es ∧ .answer t i k (some a) ∈ es := by
  induction sched generalizing s bd bk base m p with
  | nil => simp at hc
  | cons u us ih =>
    simp only [List.length_cons] at hm
    obtain ⟨b1, k1, e0, l1, f1, i1⟩ := hub_step (m' := m + 1) hI Rd P hR (by omega) (by omega) hi u (fun _ _ _ => ⟨by omega, by omega⟩)
    have hg := hi.gor t
    unfold GorInv at hg
    rw [hp] at hg
    obtain ⟨_, v, _, _, hs, h3, h4, h5⟩ := hg
    by_cases e : u = t
    · subst e
      rw [List.count_cons_self] at hc
      rcases read_next h5 with ⟨x, rfl, _⟩ | ⟨a, kk, c0, rfl, r1, r2⟩
      · obtain ⟨_, _, es, l2, _⟩ := hub_exec hI Rd P hR us (by omega) i1
        refine ⟨x, .answer u i k (some x) :: es, ?_, by simp⟩
        simp only [Hub.exec]; rw [l2]
        simp [Hub.step, hp, Hub.note, Hub.put]
      · have em : s.heap.mem a = some c0 := by rw [h3.mem a (h3.ok.lt r1), r1]
        have e1 : ((s.step I Rd u).th u).phase = .reading i k (kk c0) c := by simp [Hub.step, hp, Prog.step, em, Hub.put]
        have e2 : (s.step I Rd u).heap = s.heap := by simp [Hub.step, hp, Prog.step, em, Hub.put]
        simp only [Prog.left, em] at hc
        obtain ⟨x, es, l2, hx⟩ := ih (by omega) i1 e1 (by rw [e2]; omega)
        refine ⟨x, e0 ++ es, ?_, List.mem_append_right _ hx⟩
        simp only [Hub.exec]; rw [l2, l1, List.append_assoc]
    · have hc' : p.left s.heap < us.count t := by
        rw [List.count_cons_of_ne e] at hc; exact hc
      have et : ((s.step I Rd u).th t).phase = .reading i k p c := by
        rw [step_other Rd s (fun h => e h.symm)]; exact hp
      obtain ⟨a1, a2⟩ := hub_step_heap Rd P hi u
      have h3' : Since hs (s.step I Rd u).heap := by
        rcases h4 with h4 | h4
        · exact h3.above h4 a1
        · have hh : s.holder = some t := by simpa using h4
          rw [a2 (by rw [hh]; simpa using fun h => e h.symm)]
          exact h3
      have : p.left (s.step I Rd u).heap = p.left s.heap := by rw [left_since h5 h3', left_since h5 h3]
      obtain ⟨x, es, l2, hx⟩ := ih (by omega) i1 et (by rw [this]; exact hc')
      refine ⟨x, e0 ++ es, ?_, List.mem_append_right _ hx⟩
      simp only [Hub.exec]; rw [l2, l1, List.append_assoc]

/-- Goroutine `t` has something to do and does not wait. -/
def Hub.ready (s : Hub D T O R K A) (t : T) : Prop := match (s.th t).phase with
  | .idle .done => False
  | .idle (.lock _) => s.holder = none
  | _ => True

/-- Goroutine `t` has come to its end. -/
def Hub.ended (s : Hub D T O R K A) (t : T) : Prop := (s.th t).phase = .idle .done

/-- What goroutines sharing the variable can rely on, at any point of a schedule: the record of events fits the board; nobody has failed; no
node is about to be written while another goroutine is about to touch it; the variable shows what the board says; who has not come to the end can go on
or waits for the lock, whose holder can go on; and a read that has begun ends after the turns it needs alone. -/
structure HubPromise (I : OImpl D O R) (Rd : K → R → Prog D A) (P : K → List O → A → Prop) (Ob : Heap D → R → List O → Prop) (bd : Board T O) (s : Hub D T O R K A) : Prop where
  fits : bd.FitsAll P s.log
  safe : ∀ t, ¬ s.failed t
  norace : ∀ t u a, t ≠ u → s.writes t = some a → s.touches u ≠ some a
  holder : (bd.replay s.log).holder = s.holder
  shows : Ob s.heap s.cur (bd.replay s.log).pub
  progress : ∀ t, s.ended t ∨ s.ready t ∨ ∃ u, s.holder = some u ∧ u ≠ t ∧ s.ready u

theorem HubInv.promise {I : OImpl D O R} {n base m : Nat} (hI : I.Lawful n) (Rd : K → R → Prog D A) {P : K → List O → A → Prop} {Ob : Heap D → R → List O → Prop}
    (hO : ∀ h r l F, l.length ≤ n → I.Obj h r l F → Ob h r l) (hm : m ≤ n)
    {s : Hub D T O R K A} {bd : Board T O} {bk : T → Book O} (hf : bd.FitsAll P s.log) (hi : HubInv I P base m s (bd.replay s.log) bk) : HubPromise I Rd P Ob bd s := by
  refine ⟨hf, fun t => ?_, fun t u a hne hw ht => ?_, hi.holder, ?_, fun t => ?_⟩
  · have hg := hi.gor t
    unfold GorInv at hg
    unfold Hub.failed
    split
    · exact id
    · rename_i hp
      rw [hp] at hg
      rintro ⟨e, rfl⟩
      exact hg.2.2
    · rename_i hp
      rw [hp] at hg
      rintro ⟨e, rfl⟩
      obtain ⟨_, v, _, _, hs, h3, h4, h5⟩ := hg
      exact h5
  · have hg := hi.gor t
    have hu := hi.gor u
    unfold GorInv at hg hu
    unfold Hub.writes at hw
    unfold Hub.touches at ht
    split at hw
    · cases hw
    · rename_i op p g hp
      rw [hp] at hg
      have hh : s.holder = some t := by simpa using hg.1
      have hlk : ¬ s.holder = some u := by rw [hh]; simpa using hne
      have ha : base ≤ a := by
        have h2 := hg.2.2
        cases p with
        | write b c k => simp only [Prog.writes, Option.some.injEq] at hw; subst hw; exact h2.1
        | ret x => cases hw
        | stop x => cases hw
        | read x k => cases hw
        | alloc x k => cases hw
      split at ht
      · cases ht
      · rename_i hpu
        rw [hpu] at hu
        exact hlk (by simpa using hu.1)
      · rename_i hpu
        rw [hpu] at hu
        obtain ⟨_, v, _, _, hs, h3, h4, h5⟩ := hu
        have h4 : hs.next ≤ base := by simpa [hlk] using h4
        rcases read_next h5 with ⟨x, rfl, _⟩ | ⟨b, kk, c0, rfl, r1, r2⟩
        · cases ht
        · simp only [Prog.touches, Option.some.injEq] at ht
          subst ht
          have := h3.ok.lt r1
          omega
    · rename_i hp
      rw [hp] at hg
      obtain ⟨_, v, _, _, hs, h3, h4, h5⟩ := hg
      rcases read_next h5 with ⟨x, rfl, _⟩ | ⟨b, kk, c0, rfl, r1, r2⟩ <;> cases hw
  · obtain ⟨F, f1, _, f2⟩ := hi.cur.obj hI
    exact hO _ _ _ _ (by omega) f1
  · have rd : ∀ u, s.holder = some u → s.ready u := by
      intro u hu
      have hg := hi.gor u
      unfold GorInv at hg
      unfold Hub.ready
      split
      · rename_i hp
        rw [hp] at hg
        simp [hu, Act.Legal] at hg
      · rename_i hp
        rw [hp] at hg
        simp [hu, Act.Legal] at hg
      · trivial
    by_cases h1 : s.ended t
    · exact .inl h1
    · by_cases h2 : s.ready t
      · exact .inr (.inl h2)
      · cases hh : s.holder with
        | none =>
          exfalso
          apply h2
          unfold Hub.ready
          split
          · rename_i hp; exact h1 hp
          · exact hh
          · trivial
        | some u =>
          refine .inr (.inr ⟨u, rfl, ?_, rd u hh⟩)
          rintro rfl
          exact h2 (rd u hh)

/-- The board at the start. -/
def Board.start (l : List O) : Board T O := ⟨l, fun _ => [], none⟩

theorem hub_start {I : OImpl D O R} {m : Nat} (P : K → List O → A → Prop) {h : Heap D} (hk : h.Ok) {r : R} {l : List O} {F : Addr → Prop} (ho : I.Obj h r l F) (hl : l.length ≤ m)
    (act : T → Act O K A) (ha : ∀ t, (act t).Legal I.cowOk I.inpOk P false ⟨1, []⟩) :
    HubInv I P h.next m (Hub.start h r act) (Board.start l) (fun _ => ⟨1, []⟩) := by
  refine ⟨hk, Nat.le_refl _, ⟨h, F, ⟨hk, Nat.le_refl _, fun _ _ => rfl⟩, Nat.le_refl _, ho, hl⟩, fun t => rfl, rfl, fun t => ?_⟩
  exact ⟨ha t, by simp [RootsInv, Hub.start]⟩

/-- After any legal history the client puts one of its trees into the variable; any number of goroutines share it, in any schedule. -/
theorem hub_sound {I : OImpl D O R} {n : Nat} (hI : I.Lawful n) (ops : List (SOp O)) (hl : (Book.init : Book O).LegalAll2 I.cowOk I.inpOk ops)
    (Rd : K → R → Prog D A) (P : K → List O → A → Prop) (Ob : Heap D → R → List O → Prop)
    (hR : ∀ k h r l F, l.length ≤ n → I.Obj h r l F → wp (fun _ => False) (Rd k r) (fun x h' => h' = h ∧ P k l x) h)
    (hO : ∀ h r l F, l.length ≤ n → I.Obj h r l F → Ob h r l) (act : T → Act O K A)
    (ha : ∀ t, (act t).Legal I.cowOk I.inpOk P false ⟨1, []⟩) (sched : List T) (hn : ops.length + sched.length ≤ n) :
    ∃ s, OStore.init.exec I ops = .ok s ∧ ∀ (i : Nat) r v, s.roots[i]? = some r → (Book.init.exec ops).vs[i]? = some v →
      HubPromise I Rd P Ob (Board.start v.2) ((Hub.start s.heap r act).exec I Rd sched) ∧
      ∀ pre post t j k p c, sched = pre ++ post → (((Hub.start s.heap r act).exec I Rd pre).th t).phase = .reading j k p c →
        p.left ((Hub.start s.heap r act).exec I Rd pre).heap < post.count t →
        ∃ a es, ((Hub.start s.heap r act).exec I Rd sched).log = ((Hub.start s.heap r act).exec I Rd pre).log ++ es ∧ .answer t j k (some a) ∈ es := by
  obtain ⟨s, e, i1⟩ := oexec_inv hI (oinv_init I) ops (by omega) hl
  refine ⟨s, e, fun i r v hr hv => ?_⟩
  obtain ⟨F, f1, f2⟩ := i1.get hr hv
  have h0 := hub_start (T := T) P i1.ok f1 (by omega : v.2.length ≤ ops.length) act ha
  obtain ⟨b1, k1, es, l1, fit, inv⟩ := hub_exec hI Rd P hR sched hn h0
  have l1 : ((Hub.start s.heap r act).exec I Rd sched).log = es := by rw [l1]; rfl
  refine ⟨HubInv.promise (m := ops.length + sched.length) hI Rd hO hn (by rw [l1]; exact fit) (by rw [l1]; exact inv), ?_⟩
  rintro pre post t j k p c rfl hp hc
  rw [List.length_append] at hn
  obtain ⟨_, _, _, _, _, inv2⟩ := hub_exec hI Rd P hR pre (by omega) h0
  obtain ⟨a, es, l2, ha⟩ := hub_read hI Rd P hR post (by omega) inv2 hp hc
  refine ⟨a, es, ?_, ha⟩
  have : ∀ (s : Hub D T O R K A) (xs ys : List T), s.exec I Rd (xs ++ ys) = (s.exec I Rd xs).exec I Rd ys := by
    intro s xs ys
    induction xs generalizing s with
    | nil => rfl
    | cons x xs ih => exact ih _
  rw [this]; exact l2

end Verif.Heap
