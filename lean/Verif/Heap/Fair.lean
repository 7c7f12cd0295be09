import Verif.Heap.Atomic
import Verif.Heap.Guard

/-!
# Fair schedules come to an end

Goroutines sharing a variable (`Verif/Heap/Publish.lean`) or a tree under a read-write lock (`Verif/Heap/Guard.lean`), in an infinite schedule that gives every
goroutine a turn again and again.
-/

namespace Verif.Heap
open Prog
variable {D T O R K A : Type}

/-- Every goroutine gets its turn again and again. -/
def Fair (sched : Nat → T) : Prop := ∀ t i, ∃ j, i ≤ j ∧ sched j = t

/-- The first `m` turns. -/
def firstTurns (sched : Nat → T) (m : Nat) : List T := (List.range m).map sched

theorem firstTurns_succ (sched : Nat → T) (m : Nat) : firstTurns sched (m + 1) = firstTurns sched m ++ [sched m] := by
  simp [firstTurns, List.range_succ]

/-! ## In general -/

section General
variable {S X : Type}

/-- The states of an infinite schedule. -/
def runTurns (step : S → T → S) (s : S) (sched : Nat → T) : Nat → S
  | 0 => s
  | n + 1 => step (runTurns step s sched n) (sched n)

variable {step : S → T → S} {ph : S → T → X} {lt : X → X → Prop}

/-- What one goroutine has before it gets less only finitely often. -/
theorem settles (hwf : WellFounded lt) (hother : ∀ s t u, u ≠ t → ph (step s t) u = ph s u) (hself : ∀ s t, lt (ph (step s t) t) (ph s t) ∨ step s t = s)
    (s : S) (sched : Nat → T) (u : T) (n : Nat) :
    ∃ m, n ≤ m ∧ ∀ k, m ≤ k → ph (runTurns step s sched k) u = ph (runTurns step s sched m) u := by
  suffices h : ∀ x n, ph (runTurns step s sched n) u = x → ∃ m, n ≤ m ∧ ∀ k, m ≤ k → ph (runTurns step s sched k) u = ph (runTurns step s sched m) u from h _ n rfl
  intro x
  induction x using hwf.induction with
  | _ x ih =>
    intro n hn
    by_cases h : ∃ k, n ≤ k ∧ lt (ph (runTurns step s sched k) u) x
    · obtain ⟨k, h1, h2⟩ := h
      obtain ⟨m, m1, m2⟩ := ih _ h2 k rfl
      exact ⟨m, by omega, m2⟩
    · refine ⟨n, Nat.le_refl _, fun k hk => ?_⟩
      induction k with
      | zero =>
        have : n = 0 := by omega
        rw [this]
      | succ k ihk =>
        by_cases hnk : n = k + 1
        · rw [hnk]
        have e := ihk (by omega)
        rw [← e]
        show ph (step _ (sched k)) u = _
        by_cases hu : u = sched k
        · rcases hself (runTurns step s sched k) (sched k) with h1 | h1
          · rw [← hu, e, hn] at h1
            exact absurd ⟨k + 1, by omega, by rw [runTurns, ← hu]; exact h1⟩ h
          · rw [h1]
        · exact hother _ _ _ hu

/-- If somebody can always go on until all have ended, all end. -/
theorem fair_ends (hwf : WellFounded lt) (hother : ∀ s t u, u ≠ t → ph (step s t) u = ph s u) (hself : ∀ s t, lt (ph (step s t) t) (ph s t) ∨ step s t = s)
    {ended : S → T → Prop} {ts : List T} (hts : ∀ t, t ∈ ts) (s : S) {sched : Nat → T} (hf : Fair sched)
    (hgo : ∀ m t, ¬ ended (runTurns step s sched m) t → ∃ u, lt (ph (step (runTurns step s sched m) u) u) (ph (runTurns step s sched m) u)) :
    ∃ n, ∀ m, n ≤ m → ∀ t, ended (runTurns step s sched m) t := by
  have hall : ∀ l : List T, ∃ m, ∀ u ∈ l, ∀ k, m ≤ k → ph (runTurns step s sched k) u = ph (runTurns step s sched m) u := by
    intro l
    induction l with
    | nil => exact ⟨0, by simp⟩
    | cons v l ih =>
      obtain ⟨m, hm⟩ := ih
      obtain ⟨m', h1, h2⟩ := settles hwf hother hself s sched v m
      refine ⟨m', fun u hu k hk => ?_⟩
      rcases List.mem_cons.1 hu with rfl | hu
      · exact h2 k hk
      · rw [hm u hu k (by omega), hm u hu m' h1]
  obtain ⟨n, hn⟩ := hall ts
  have hstay : ∀ k, n ≤ k → runTurns step s sched k = runTurns step s sched n := by
    intro k hk
    induction k with
    | zero =>
      have : n = 0 := by omega
      rw [this]
    | succ k ih =>
      by_cases hnk : n = k + 1
      · rw [hnk]
      have e := ih (by omega)
      rcases hself (runTurns step s sched k) (sched k) with h1 | h1
      · have e1 := hn (sched k) (hts _) (k + 1) (by omega)
        rw [← hn (sched k) (hts _) k (by omega)] at e1
        have e2 : ph (step (runTurns step s sched k) (sched k)) (sched k) = ph (runTurns step s sched k) (sched k) := e1
        rw [e2] at h1
        exact absurd h1 (fun h => by
          have := hwf.apply (ph (runTurns step s sched k) (sched k))
          generalize ph (runTurns step s sched k) (sched k) = x at this h
          induction this with
          | intro x _ ih => exact ih x h h)
      · show step _ _ = _
        rw [h1, e]
  refine ⟨n, fun m hm t => ?_⟩
  rw [hstay m hm]
  refine Classical.byContradiction fun hne => ?_
  obtain ⟨u, hu⟩ := hgo n t hne
  obtain ⟨j, j1, j2⟩ := hf u n
  have e : step (runTurns step s sched n) u = runTurns step s sched n := by
    have := hstay (j + 1) (by omega)
    rw [runTurns, hstay j j1, j2] at this
    exact this
  rw [e] at hu
  have := hwf.apply (ph (runTurns step s sched n) u)
  generalize ph (runTurns step s sched n) u = x at this hu
  induction this with
  | intro x _ ih => exact ih x hu hu

end General

/-- What is left of a program after one access. -/
inductive Prog.Less {α : Type} : Prog D α → Prog D α → Prop where
  | read (a k c) : Less (k c) (.read a k)
  | miss (a k) : Less (.stop .panic) (.read a k)
  | write (a c k) : Less k (.write a c k)
  | alloc (c k a) : Less (k a) (.alloc c k)

theorem Prog.step_less {α : Type} {p q : Prog D α} {h h' : Heap D} (e : p.step h = some (q, h')) : Less q p := by
  cases p with
  | ret x => cases e
  | stop x => cases e
  | read a k =>
    simp only [Prog.step] at e
    split at e <;> (cases e; constructor)
  | write a c k => cases e; constructor
  | alloc c k => cases e; constructor

/-! ## A shared variable -/

/-- What is left of a goroutine after one step. -/
inductive Phase.Less : Phase D O R K A → Phase D O R K A → Prop where
  | load (c) : Less (.idle c) (.idle (.load c))
  | drop (i c) : Less (.idle c) (.idle (.drop i c))
  | none (i k c) : Less (.idle (c none)) (.idle (.read i k c))
  | read (i k c p) : Less (.reading i k p c) (.idle (.read i k c))
  | lock (c) : Less (.idle c) (.idle (.lock c))
  | call (op p c) : Less (.calling op p c) (.idle (.call op c))
  | store (i c) : Less (.idle c) (.idle (.store i c))
  | unlock (c) : Less (.idle c) (.idle (.unlock c))
  | called (op rs c) : Less (.idle c) (.calling op (.ret rs) c)
  | calling (op p q c) : Prog.Less q p → Less (.calling op q c) (.calling op p c)
  | answer (i k a c) : Less (.idle (c (some a))) (.reading i k (.ret a) c)
  | reading (i k p q c) : Prog.Less q p → Less (.reading i k q c) (.reading i k p c)

theorem Phase.acc_calling {op : SOp O} {c : Act O K A} (h : Acc (Phase.Less (D := D) (R := R)) (.idle c)) (p : Prog D (List R)) : Acc Phase.Less (.calling op p c) := by
  induction p with
  | ret rs => exact ⟨_, fun y hy => by cases hy with | called => exact h | calling _ _ _ _ hl => cases hl⟩
  | stop e => exact ⟨_, fun y hy => by cases hy with | calling _ _ _ _ hl => cases hl⟩
  | read a k ih =>
    have hs : ∀ e, Acc Phase.Less (.calling op (.stop e : Prog D (List R)) c) := fun e => ⟨_, fun y hy => by cases hy with | calling _ _ _ _ hl => cases hl⟩
    exact ⟨_, fun y hy => by cases hy with | calling _ _ _ _ hl => cases hl with | read => exact ih _ | miss => exact hs _⟩
  | write a c k ih => exact ⟨_, fun y hy => by cases hy with | calling _ _ _ _ hl => cases hl; exact ih⟩
  | alloc c k ih => exact ⟨_, fun y hy => by cases hy with | calling _ _ _ _ hl => cases hl; exact ih _⟩

theorem Phase.acc_reading {i : Nat} {k : K} {c : Option A → Act O K A} (h : ∀ x, Acc (Phase.Less (D := D) (R := R)) (.idle (c x))) (p : Prog D A) :
    Acc Phase.Less (.reading i k p c : Phase D O R K A) := by
  induction p with
  | ret rs => exact ⟨_, fun y hy => by cases hy with | answer => exact h _ | reading _ _ _ _ _ hl => cases hl⟩
  | stop e => exact ⟨_, fun y hy => by cases hy with | reading _ _ _ _ _ hl => cases hl⟩
  | read a k' ih =>
    have hs : ∀ e, Acc Phase.Less (.reading i k (.stop e) c : Phase D O R K A) := fun e => ⟨_, fun y hy => by cases hy with | reading _ _ _ _ _ hl => cases hl⟩
    exact ⟨_, fun y hy => by cases hy with | reading _ _ _ _ _ hl => cases hl with | read => exact ih _ | miss => exact hs _⟩
  | write a c k ih => exact ⟨_, fun y hy => by cases hy with | reading _ _ _ _ _ hl => cases hl; exact ih⟩
  | alloc c k ih => exact ⟨_, fun y hy => by cases hy with | reading _ _ _ _ _ hl => cases hl; exact ih _⟩

theorem Phase.acc_idle (g : Act O K A) : Acc (Phase.Less (D := D) (R := R)) (.idle g) := by
  induction g with
  | done => exact ⟨_, fun y hy => by cases hy⟩
  | load c ih => exact ⟨_, fun y hy => by cases hy; exact ih⟩
  | drop i c ih => exact ⟨_, fun y hy => by cases hy; exact ih⟩
  | read i k c ih => exact ⟨_, fun y hy => by cases hy with | none => exact ih _ | read => exact acc_reading ih _⟩
  | lock c ih => exact ⟨_, fun y hy => by cases hy; exact ih⟩
  | call op c ih => exact ⟨_, fun y hy => by cases hy; exact acc_calling ih _⟩
  | store i c ih => exact ⟨_, fun y hy => by cases hy; exact ih⟩
  | unlock c ih => exact ⟨_, fun y hy => by cases hy; exact ih⟩

theorem Phase.less_wf : WellFounded (Phase.Less (D := D) (O := O) (R := R) (K := K) (A := A)) := ⟨fun x => by
  cases x with
  | idle g => exact acc_idle g
  | calling op p c => exact acc_calling (acc_idle c) p
  | reading i k p c => exact acc_reading (fun x => acc_idle _) p⟩

variable [DecidableEq T]

theorem Hub.exec_append (I : OImpl D O R) (Rd : K → R → Prog D A) (s : Hub D T O R K A) (a b : List T) : s.exec I Rd (a ++ b) = (s.exec I Rd a).exec I Rd b := by
  induction a generalizing s with
  | nil => rfl
  | cons t ts ih => exact ih _

theorem Hub.exec_first (I : OImpl D O R) (Rd : K → R → Prog D A) (s : Hub D T O R K A) (sched : Nat → T) (m : Nat) :
    s.exec I Rd (firstTurns sched m) = runTurns (fun s t => s.step I Rd t) s sched m := by
  induction m with
  | zero => rfl
  | succ m ih => rw [firstTurns_succ, Hub.exec_append, ih]; rfl

theorem Hub.step_other (I : OImpl D O R) (Rd : K → R → Prog D A) (s : Hub D T O R K A) {t u : T} (h : u ≠ t) : (s.step I Rd t).th u = s.th u := by
  unfold Hub.step
  repeat' split
  all_goals simp [Hub.put, Hub.note, h]

/-- A step makes less of what the goroutine has before it, unless it has ended, waits or has failed. -/
theorem Hub.step_self (I : OImpl D O R) (Rd : K → R → Prog D A) (s : Hub D T O R K A) (t : T) :
    Phase.Less ((s.step I Rd t).th t).phase (s.th t).phase ∨ s.step I Rd t = s ∧ (s.ready t → s.failed t) := by
  cases hp : (s.th t).phase with
  | idle g =>
    cases g with
    | done => exact .inr (by simp [Hub.step, hp, Hub.ready])
    | load c => exact .inl (by simp only [Hub.step, hp, Hub.put, Hub.note, if_true]; constructor)
    | drop i c => exact .inl (by simp only [Hub.step, hp, Hub.put, Hub.note, if_true]; constructor)
    | read i k c =>
      refine .inl ?_
      cases hr : (s.th t).roots[i]? <;> (simp only [Hub.step, hp, hr, Hub.put, Hub.note, if_true]; constructor)
    | lock c =>
      cases hh : s.holder with
      | none => exact .inl (by simp only [Hub.step, hp, hh, Hub.put, Hub.note, if_true]; constructor)
      | some v => exact .inr (by simp [Hub.step, hp, hh, Hub.ready])
    | call op c => exact .inl (by simp only [Hub.step, hp, Hub.put, if_true]; constructor)
    | store i c => exact .inl (by simp only [Hub.step, hp, Hub.put, Hub.note, if_true]; constructor)
    | unlock c => exact .inl (by simp only [Hub.step, hp, Hub.put, Hub.note, if_true]; constructor)
  | calling op p c =>
    cases hs : p.step s.heap with
    | none =>
      cases p with
      | ret rs => exact .inl (by simp only [Hub.step, hp, Hub.put, Hub.note, if_true]; constructor)
      | stop e => exact .inr (by simp [Hub.step, hp, Prog.step, Hub.failed])
      | read a k => simp only [Prog.step] at hs; split at hs <;> cases hs
      | write a c k => cases hs
      | alloc c k => cases hs
    | some qh =>
      cases p with
      | ret rs => cases hs
      | stop e => cases hs
      | _ => exact .inl (by simp only [Hub.step, hp, hs, Hub.put, if_true]; exact .calling _ _ _ _ (Prog.step_less hs))
  | reading i k p c =>
    cases hs : p.step s.heap with
    | none =>
      cases p with
      | ret rs => exact .inl (by simp only [Hub.step, hp, Hub.put, Hub.note, if_true]; constructor)
      | stop e => exact .inr (by simp [Hub.step, hp, Prog.step, Hub.failed])
      | read a k => simp only [Prog.step] at hs; split at hs <;> cases hs
      | write a c k => cases hs
      | alloc c k => cases hs
    | some qh =>
      cases p with
      | ret rs => cases hs
      | stop e => cases hs
      | _ => exact .inl (by simp only [Hub.step, hp, hs, Hub.put, if_true]; exact .reading _ _ _ _ _ (Prog.step_less hs))

/-- If nobody fails and somebody can always go on until all have ended, all end. -/
theorem hub_fair {I : OImpl D O R} {Rd : K → R → Prog D A} {ts : List T} (hts : ∀ t, t ∈ ts) (s : Hub D T O R K A) {sched : Nat → T} (hf : Fair sched)
    (hgo : ∀ m t, ¬ (s.exec I Rd (firstTurns sched m)).ended t → ∃ u, (s.exec I Rd (firstTurns sched m)).ready u ∧ ¬ (s.exec I Rd (firstTurns sched m)).failed u) :
    ∃ n, ∀ m, n ≤ m → ∀ t, (s.exec I Rd (firstTurns sched m)).ended t := by
  simp only [Hub.exec_first] at hgo ⊢
  refine fair_ends (ph := fun s t => (s.th t).phase) Phase.less_wf (fun s t u h => by simp only [Hub.step_other I Rd s h]) ?_ hts s hf ?_
  · intro s t
    exact (s.step_self I Rd t).imp id And.left
  · intro m t ht
    obtain ⟨u, h1, h2⟩ := hgo m t ht
    refine ⟨u, ?_⟩
    rcases Hub.step_self I Rd (runTurns (fun s t => s.step I Rd t) s sched m) u with h | h
    · exact h
    · exact absurd (h.2 h1) h2

/-- The goroutine makes at most so many calls. -/
def Act.AtMost : Act O K A → Nat → Prop
  | .done, _ => True
  | .load c, n => c.AtMost n
  | .drop _ c, n => c.AtMost n
  | .read _ _ c, n => ∀ x, (c x).AtMost n
  | .lock c, n => c.AtMost n
  | .call _ c, n => ∃ m, n = m + 1 ∧ c.AtMost m
  | .store _ c, n => c.AtMost n
  | .unlock c, n => c.AtMost n

/-- The goroutine begins at most so many calls from here on. -/
def Phase.AtMost : Phase D O R K A → Nat → Prop
  | .idle g, n => g.AtMost n
  | .calling _ _ g, n => g.AtMost n
  | .reading _ _ _ c, n => ∀ x, (c x).AtMost n

theorem sum_less {k : T → Nat} {t : T} {j : Nat} (hj : k t = j + 1) (ts : List T) :
    (ts.map fun u => if u = t then j else k u).sum ≤ (ts.map k).sum ∧ (t ∈ ts → (ts.map fun u => if u = t then j else k u).sum < (ts.map k).sum) := by
  induction ts with
  | nil => simp
  | cons u ts ih =>
    by_cases h : u = t
    · subst h
      simp only [List.map_cons, List.sum_cons, if_true, hj]
      exact ⟨by omega, fun _ => by omega⟩
    · have h' : ¬ t = u := fun e => h e.symm
      simp only [List.map_cons, List.sum_cons, h, if_false, List.mem_cons, h', false_or]
      exact ⟨by omega, fun hm => by have := ih.2 hm; omega⟩

/-- A step uses up at most one call, and only by beginning one. -/
theorem Hub.step_atMost (I : OImpl D O R) (Rd : K → R → Prog D A) (s : Hub D T O R K A) (t : T) {n : Nat} (h : (s.th t).phase.AtMost n) :
    (∀ op c, (s.th t).phase ≠ .idle (.call op c)) ∧ ((s.step I Rd t).th t).phase.AtMost n ∨
    ∃ m, n = m + 1 ∧ ((s.step I Rd t).th t).phase.AtMost m := by
  cases hp : (s.th t).phase with
  | idle g =>
    rw [hp] at h
    cases g with
    | call op c =>
      obtain ⟨m, rfl, h⟩ := h
      exact .inr ⟨m, rfl, by simpa [Hub.step, hp, Hub.put, Phase.AtMost] using h⟩
    | done => exact .inl ⟨by simp, by simp [Hub.step, hp, Phase.AtMost, Act.AtMost]⟩
    | load c => exact .inl ⟨by simp, by simpa [Hub.step, hp, Hub.put, Hub.note, Phase.AtMost, Act.AtMost] using h⟩
    | drop i c => exact .inl ⟨by simp, by simpa [Hub.step, hp, Hub.put, Hub.note, Phase.AtMost, Act.AtMost] using h⟩
    | read i k c =>
      have h : ∀ x, (c x).AtMost n := h
      refine .inl ⟨by simp, ?_⟩
      cases hr : (s.th t).roots[i]? with
      | none => simpa [Hub.step, hp, hr, Hub.put, Hub.note, Phase.AtMost] using h none
      | some r => simpa [Hub.step, hp, hr, Hub.put, Hub.note, Phase.AtMost] using h
    | lock c =>
      refine .inl ⟨by simp, ?_⟩
      cases hh : s.holder with
      | none => simpa [Hub.step, hp, hh, Hub.put, Hub.note, Phase.AtMost, Act.AtMost] using h
      | some v => simpa [Hub.step, hp, hh, Hub.put, Hub.note, Phase.AtMost, Act.AtMost] using h
    | store i c => exact .inl ⟨by simp, by simpa [Hub.step, hp, Hub.put, Hub.note, Phase.AtMost, Act.AtMost] using h⟩
    | unlock c => exact .inl ⟨by simp, by simpa [Hub.step, hp, Hub.put, Hub.note, Phase.AtMost, Act.AtMost] using h⟩
  | calling op p c =>
    rw [hp] at h
    refine .inl ⟨by simp, ?_⟩
    cases p with
    | ret rs => simpa [Hub.step, hp, Hub.put, Hub.note, Phase.AtMost] using h
    | stop e => simpa [Hub.step, hp, Prog.step, Phase.AtMost] using h
    | read a k =>
      have h : c.AtMost n := h
      cases hm : s.heap.mem a <;> simpa [Hub.step, hp, Prog.step, hm, Hub.put, Phase.AtMost] using h
    | write a c k => simpa [Hub.step, hp, Prog.step, Hub.put, Phase.AtMost] using h
    | alloc c k => simpa [Hub.step, hp, Prog.step, Hub.put, Phase.AtMost] using h
  | reading i k p c =>
    rw [hp] at h
    have h : ∀ x, (c x).AtMost n := h
    refine .inl ⟨by simp, ?_⟩
    cases p with
    | ret a => simpa [Hub.step, hp, Hub.put, Hub.note, Phase.AtMost] using h (some a)
    | stop e => simpa [Hub.step, hp, Prog.step, Phase.AtMost] using h
    | read a k =>
      cases hm : s.heap.mem a <;> simpa [Hub.step, hp, Prog.step, hm, Hub.put, Phase.AtMost] using h
    | write a c k => simpa [Hub.step, hp, Prog.step, Hub.put, Phase.AtMost] using h
    | alloc c k => simpa [Hub.step, hp, Prog.step, Hub.put, Phase.AtMost] using h

/-- As `hub_exec`, for goroutines that make at most so many calls, in schedules of any length. -/
theorem hub_exec_atMost {I : OImpl D O R} {n base m : Nat} (hI : I.Lawful n) (Rd : K → R → Prog D A) (P : K → List O → A → Prop)
    (hR : ∀ k h r l F, l.length ≤ n → I.Obj h r l F → wp (fun _ => False) (Rd k r) (fun x h' => h' = h ∧ P k l x) h)
    {ts : List T} (hts : ∀ t, t ∈ ts) (sched : List T) {k : T → Nat} (hm : m + (ts.map k).sum ≤ n) {s : Hub D T O R K A} {bd : Board T O} {bk : T → Book O}
    (hk : ∀ t, (s.th t).phase.AtMost (k t)) (hi : HubInv I P base m s bd bk) :
    ∃ base' bk' es m', m' ≤ n ∧ (s.exec I Rd sched).log = s.log ++ es ∧ bd.FitsAll P es ∧ HubInv I P base' m' (s.exec I Rd sched) (bd.replay es) bk' := by
  induction sched generalizing s bd bk base m k with
  | nil => exact ⟨base, bk, [], m, by omega, by simp [Hub.exec], trivial, hi⟩
  | cons t us ih =>
    have key : ∃ m1 k1, (∀ op c, (s.th t).phase = .idle (.call op c) → m < n ∧ m < m1) ∧ m ≤ m1 ∧ m1 + (ts.map k1).sum ≤ n ∧
        ∀ u, ((s.step I Rd t).th u).phase.AtMost (k1 u) := by
      rcases s.step_atMost I Rd t (hk t) with ⟨h1, h2⟩ | ⟨j, h1, h2⟩
      · refine ⟨m, k, fun op c h => absurd h (h1 op c), Nat.le_refl _, hm, fun u => ?_⟩
        by_cases e : u = t
        · subst e; exact h2
        · rw [Hub.step_other I Rd s e]; exact hk u
      · have hs := (sum_less h1 ts).2 (hts t)
        refine ⟨m + 1, fun u => if u = t then j else k u, fun op c _ => ⟨by omega, by omega⟩, by omega, by omega, fun u => ?_⟩
        by_cases e : u = t
        · subst e; simpa using h2
        · rw [Hub.step_other I Rd s e]; simpa [e] using hk u
    obtain ⟨m1, k1, c1, c2, c3, c4⟩ := key
    obtain ⟨b1, bk1, e1, l1, f1, i1⟩ := hub_step hI Rd P hR (by omega) c2 hi t c1
    obtain ⟨b2, bk2, e2, m2, n2, l2, f2, i2⟩ := ih c3 c4 i1
    refine ⟨b2, bk2, e1 ++ e2, m2, n2, ?_, ?_, ?_⟩
    · simp only [Hub.exec]; rw [l2, l1, List.append_assoc]
    · rw [Board.fitsAll_append]; exact ⟨f1, f2⟩
    · rw [Board.replay_append]; exact i2

/-- What goroutines sharing a variable can rely on in an infinite schedule: at any time what `HubPromise` says, and all come to their end if the schedule is fair. -/
structure HubEnds (I : OImpl D O R) (Rd : K → R → Prog D A) (P : K → List O → A → Prop) (Ob : Heap D → R → List O → Prop) (l : List O) (act : T → Act O K A)
    (s : Hub D T O R K A) (sched : Nat → T) : Prop where
  follows : ∀ m, Follows act (s.exec I Rd (firstTurns sched m)).log fun t => ((s.exec I Rd (firstTurns sched m)).th t).phase.todo
  promise : ∀ m, HubPromise I Rd P Ob (Board.start l) (s.exec I Rd (firstTurns sched m))
  ends : Fair sched → ∃ n, ∀ m, n ≤ m → ∀ t, (s.exec I Rd (firstTurns sched m)).ended t

theorem HubEnds.of_promise {I : OImpl D O R} {Rd : K → R → Prog D A} {P : K → List O → A → Prop} {Ob : Heap D → R → List O → Prop} {l : List O} {act : T → Act O K A}
    {h : Heap D} {r : R} {sched : Nat → T} {ts : List T} (hts : ∀ t, t ∈ ts)
    (hp : ∀ m, HubPromise I Rd P Ob (Board.start l) ((Hub.start h r act).exec I Rd (firstTurns sched m))) : HubEnds I Rd P Ob l act (Hub.start h r act) sched := by
  refine ⟨fun m => exec_follows Rd _ .nil, hp, fun hf => hub_fair hts _ hf fun m t ht => ?_⟩
  rcases (hp m).progress t with h | h | ⟨u, _, _, h⟩
  · exact absurd h ht
  · exact ⟨t, h, (hp m).safe t⟩
  · exact ⟨u, h, (hp m).safe u⟩

/-- Trees whose size does not matter. -/
theorem hub_ends {I : OImpl D O R} (hI : ∀ n, I.Lawful n) (ops : List (SOp O)) (hl : (Book.init : Book O).LegalAll2 I.cowOk I.inpOk ops)
    (Rd : K → R → Prog D A) (P : K → List O → A → Prop) (Ob : Heap D → R → List O → Prop)
    (hR : ∀ k h r l F, I.Obj h r l F → wp (fun _ => False) (Rd k r) (fun x h' => h' = h ∧ P k l x) h)
    (hO : ∀ h r l F, I.Obj h r l F → Ob h r l) {ts : List T} (hts : ∀ t, t ∈ ts) (act : T → Act O K A)
    (ha : ∀ t, (act t).Legal I.cowOk I.inpOk P false ⟨1, []⟩) (sched : Nat → T) :
    ∃ s, OStore.init.exec I ops = .ok s ∧ ∀ (i : Nat) r v, s.roots[i]? = some r → (Book.init.exec ops).vs[i]? = some v →
      HubEnds I Rd P Ob v.2 act (Hub.start s.heap r act) sched := by
  obtain ⟨s, e, _⟩ := hub_sound (hI _) ops hl Rd P Ob (fun k h r l F _ => hR k h r l F) (fun h r l F _ => hO h r l F) act ha [] (Nat.le_refl _)
  refine ⟨s, e, fun i r v hr hv => .of_promise hts fun m => ?_⟩
  obtain ⟨s', e', h⟩ := hub_sound (hI _) ops hl Rd P Ob (fun k h r l F _ => hR k h r l F) (fun h r l F _ => hO h r l F) act ha (firstTurns sched m) (Nat.le_refl _)
  rw [e] at e'
  cases e'
  exact (h i r v hr hv).1

/-- Trees of bounded size. -/
theorem hub_ends_atMost {I : OImpl D O R} {n : Nat} (hI : I.Lawful n) (ops : List (SOp O)) (hl : (Book.init : Book O).LegalAll2 I.cowOk I.inpOk ops)
    (Rd : K → R → Prog D A) (P : K → List O → A → Prop) (Ob : Heap D → R → List O → Prop)
    (hR : ∀ k h r l F, l.length ≤ n → I.Obj h r l F → wp (fun _ => False) (Rd k r) (fun x h' => h' = h ∧ P k l x) h)
    (hO : ∀ h r l F, l.length ≤ n → I.Obj h r l F → Ob h r l) {ts : List T} (hts : ∀ t, t ∈ ts) (act : T → Act O K A)
    (ha : ∀ t, (act t).Legal I.cowOk I.inpOk P false ⟨1, []⟩) (k : T → Nat) (hk : ∀ t, (act t).AtMost (k t)) (hn : ops.length + (ts.map k).sum ≤ n) (sched : Nat → T) :
    ∃ s, OStore.init.exec I ops = .ok s ∧ ∀ (i : Nat) r v, s.roots[i]? = some r → (Book.init.exec ops).vs[i]? = some v →
      HubEnds I Rd P Ob v.2 act (Hub.start s.heap r act) sched := by
  obtain ⟨s, e, i1⟩ := oexec_inv hI (oinv_init I) ops (by omega) hl
  refine ⟨s, e, fun i r v hr hv => .of_promise hts fun m => ?_⟩
  obtain ⟨F, f1, f2⟩ := i1.get hr hv
  have h0 := hub_start (T := T) P i1.ok f1 (by omega : v.2.length ≤ ops.length) act ha
  obtain ⟨b1, k1, es, m1, n1, l1, fit, inv⟩ := hub_exec_atMost hI Rd P hR hts (firstTurns sched m) hn (s := Hub.start s.heap r act) (fun t => hk t) h0
  have l1 : ((Hub.start s.heap r act).exec I Rd (firstTurns sched m)).log = es := by rw [l1]; rfl
  exact HubInv.promise hI Rd hO n1 (by rw [l1]; exact fit) (by rw [l1]; exact inv)

/-! ## A tree under a read-write lock -/

/-- What is left of a goroutine after one step. -/
inductive GPhase.Less : GPhase D O R K A → GPhase D O R K A → Prop where
  | lock (c) : Less (.idle c) (.idle (.lock c))
  | unlock (c) : Less (.idle c) (.idle (.unlock c))
  | rlock (c) : Less (.idle c) (.idle (.rlock c))
  | runlock (c) : Less (.idle c) (.idle (.runlock c))
  | change (b o p c) : Less (.changing b o p c) (.idle (.change b o c))
  | read (k p c) : Less (.reading k p c) (.idle (.read k c))
  | changed (b o r c) : Less (.idle c) (.changing b o (.ret r) c)
  | changing (b o p q c) : Prog.Less q p → Less (.changing b o q c) (.changing b o p c)
  | answer (k a c) : Less (.idle (c a)) (.reading k (.ret a) c)
  | reading (k p q c) : Prog.Less q p → Less (.reading k q c) (.reading k p c)

omit [DecidableEq T] in
theorem GPhase.acc_changing {b : Bool} {o : O} {c : GAct O K A} (h : Acc (GPhase.Less (D := D) (R := R)) (.idle c)) (p : Prog D R) : Acc GPhase.Less (.changing b o p c) := by
  induction p with
  | ret r => exact ⟨_, fun y hy => by cases hy with | changed => exact h | changing _ _ _ _ _ hl => cases hl⟩
  | stop e => exact ⟨_, fun y hy => by cases hy with | changing _ _ _ _ _ hl => cases hl⟩
  | read a k ih =>
    have hs : ∀ e, Acc GPhase.Less (.changing b o (.stop e : Prog D R) c) := fun e => ⟨_, fun y hy => by cases hy with | changing _ _ _ _ _ hl => cases hl⟩
    exact ⟨_, fun y hy => by cases hy with | changing _ _ _ _ _ hl => cases hl with | read => exact ih _ | miss => exact hs _⟩
  | write a c k ih => exact ⟨_, fun y hy => by cases hy with | changing _ _ _ _ _ hl => cases hl; exact ih⟩
  | alloc c k ih => exact ⟨_, fun y hy => by cases hy with | changing _ _ _ _ _ hl => cases hl; exact ih _⟩

omit [DecidableEq T] in
theorem GPhase.acc_reading {k : K} {c : A → GAct O K A} (h : ∀ x, Acc (GPhase.Less (D := D) (R := R)) (.idle (c x))) (p : Prog D A) :
    Acc GPhase.Less (.reading k p c : GPhase D O R K A) := by
  induction p with
  | ret a => exact ⟨_, fun y hy => by cases hy with | answer => exact h _ | reading _ _ _ _ hl => cases hl⟩
  | stop e => exact ⟨_, fun y hy => by cases hy with | reading _ _ _ _ hl => cases hl⟩
  | read a k' ih =>
    have hs : ∀ e, Acc GPhase.Less (.reading k (.stop e) c : GPhase D O R K A) := fun e => ⟨_, fun y hy => by cases hy with | reading _ _ _ _ hl => cases hl⟩
    exact ⟨_, fun y hy => by cases hy with | reading _ _ _ _ hl => cases hl with | read => exact ih _ | miss => exact hs _⟩
  | write a c k ih => exact ⟨_, fun y hy => by cases hy with | reading _ _ _ _ hl => cases hl; exact ih⟩
  | alloc c k ih => exact ⟨_, fun y hy => by cases hy with | reading _ _ _ _ hl => cases hl; exact ih _⟩

omit [DecidableEq T] in
theorem GPhase.acc_idle (g : GAct O K A) : Acc (GPhase.Less (D := D) (R := R)) (.idle g) := by
  induction g with
  | done => exact ⟨_, fun y hy => by cases hy⟩
  | lock c ih => exact ⟨_, fun y hy => by cases hy; exact ih⟩
  | unlock c ih => exact ⟨_, fun y hy => by cases hy; exact ih⟩
  | rlock c ih => exact ⟨_, fun y hy => by cases hy; exact ih⟩
  | runlock c ih => exact ⟨_, fun y hy => by cases hy; exact ih⟩
  | change b o c ih => exact ⟨_, fun y hy => by cases hy; exact acc_changing ih _⟩
  | read k c ih => exact ⟨_, fun y hy => by cases hy; exact acc_reading ih _⟩

omit [DecidableEq T] in
theorem GPhase.less_wf : WellFounded (GPhase.Less (D := D) (O := O) (R := R) (K := K) (A := A)) := ⟨fun x => by
  cases x with
  | idle g => exact acc_idle g
  | changing b o p c => exact acc_changing (acc_idle c) p
  | reading k p c => exact acc_reading (fun x => acc_idle _) p⟩

theorem Guard.exec_append (I : OImpl D O R) (Rd : K → R → Prog D A) (s : Guard D T O R K A) (a b : List T) : s.exec I Rd (a ++ b) = (s.exec I Rd a).exec I Rd b := by
  induction a generalizing s with
  | nil => rfl
  | cons t ts ih => exact ih _

theorem Guard.exec_first (I : OImpl D O R) (Rd : K → R → Prog D A) (s : Guard D T O R K A) (sched : Nat → T) (m : Nat) :
    s.exec I Rd (firstTurns sched m) = runTurns (fun s t => s.step I Rd t) s sched m := by
  induction m with
  | zero => rfl
  | succ m ih => rw [firstTurns_succ, Guard.exec_append, ih]; rfl

theorem Guard.step_other (I : OImpl D O R) (Rd : K → R → Prog D A) (s : Guard D T O R K A) {t u : T} (h : u ≠ t) : (s.step I Rd t).th u = s.th u := by
  unfold Guard.step
  repeat' split
  all_goals simp [Guard.put, Guard.note, h]

/-- A step makes less of what the goroutine has before it, unless it has ended, waits or has failed. -/
theorem Guard.step_self (I : OImpl D O R) (Rd : K → R → Prog D A) (s : Guard D T O R K A) (t : T) :
    GPhase.Less ((s.step I Rd t).th t) (s.th t) ∨ s.step I Rd t = s ∧ (s.ready t → s.failed t) := by
  cases hp : s.th t with
  | idle g =>
    cases g with
    | done => exact .inr (by simp [Guard.step, hp, Guard.ready])
    | lock c =>
      by_cases hh : s.writer = none ∧ s.readers = []
      · exact .inl (by simp only [Guard.step, hp, hh, and_self, Guard.put, Guard.note, if_true]; constructor)
      · exact .inr ⟨by simp only [Guard.step, hp, hh, if_false], fun hr => absurd (by simpa [Guard.ready, hp] using hr) hh⟩
    | unlock c => exact .inl (by simp only [Guard.step, hp, Guard.put, Guard.note, if_true]; constructor)
    | rlock c =>
      by_cases hh : s.writer = none
      · exact .inl (by simp only [Guard.step, hp, hh, Guard.put, Guard.note, if_true]; constructor)
      · exact .inr ⟨by simp only [Guard.step, hp, hh, if_false], fun hr => absurd (by simpa [Guard.ready, hp] using hr) hh⟩
    | runlock c => exact .inl (by simp only [Guard.step, hp, Guard.put, Guard.note, if_true]; constructor)
    | change b o c => exact .inl (by simp only [Guard.step, hp, Guard.put, if_true]; constructor)
    | read k c => exact .inl (by simp only [Guard.step, hp, Guard.put, if_true]; constructor)
  | changing b o p c =>
    cases hs : p.step s.heap with
    | none =>
      cases p with
      | ret r => exact .inl (by simp only [Guard.step, hp, Guard.put, Guard.note, if_true]; constructor)
      | stop e => exact .inr (by simp [Guard.step, hp, Prog.step, Guard.failed])
      | read a k => simp only [Prog.step] at hs; split at hs <;> cases hs
      | write a c k => cases hs
      | alloc c k => cases hs
    | some qh =>
      cases p with
      | ret r => cases hs
      | stop e => cases hs
      | _ => exact .inl (by simp only [Guard.step, hp, hs, Guard.put, if_true]; exact .changing _ _ _ _ _ (Prog.step_less hs))
  | reading k p c =>
    cases hs : p.step s.heap with
    | none =>
      cases p with
      | ret a => exact .inl (by simp only [Guard.step, hp, Guard.put, Guard.note, if_true]; constructor)
      | stop e => exact .inr (by simp [Guard.step, hp, Prog.step, Guard.failed])
      | read a k => simp only [Prog.step] at hs; split at hs <;> cases hs
      | write a c k => cases hs
      | alloc c k => cases hs
    | some qh =>
      cases p with
      | ret a => cases hs
      | stop e => cases hs
      | _ => exact .inl (by simp only [Guard.step, hp, hs, Guard.put, if_true]; exact .reading _ _ _ _ (Prog.step_less hs))

/-- If nobody fails and somebody can always go on until all have ended, all end. -/
theorem guard_fair {I : OImpl D O R} {Rd : K → R → Prog D A} {ts : List T} (hts : ∀ t, t ∈ ts) (s : Guard D T O R K A) {sched : Nat → T} (hf : Fair sched)
    (hgo : ∀ m t, ¬ (s.exec I Rd (firstTurns sched m)).ended t → ∃ u, (s.exec I Rd (firstTurns sched m)).ready u ∧ ¬ (s.exec I Rd (firstTurns sched m)).failed u) :
    ∃ n, ∀ m, n ≤ m → ∀ t, (s.exec I Rd (firstTurns sched m)).ended t := by
  simp only [Guard.exec_first] at hgo ⊢
  refine fair_ends (ph := fun s t => s.th t) GPhase.less_wf (fun s t u h => Guard.step_other I Rd s h) ?_ hts s hf ?_
  · intro s t
    exact (s.step_self I Rd t).imp id And.left
  · intro m t ht
    obtain ⟨u, h1, h2⟩ := hgo m t ht
    refine ⟨u, ?_⟩
    rcases Guard.step_self I Rd (runTurns (fun s t => s.step I Rd t) s sched m) u with h | h
    · exact h
    · exact absurd (h.2 h1) h2

/-- The goroutine makes at most so many changes. -/
def GAct.AtMost : GAct O K A → Nat → Prop
  | .done, _ => True
  | .lock c, n => c.AtMost n
  | .unlock c, n => c.AtMost n
  | .rlock c, n => c.AtMost n
  | .runlock c, n => c.AtMost n
  | .change _ _ c, n => ∃ m, n = m + 1 ∧ c.AtMost m
  | .read _ c, n => ∀ x, (c x).AtMost n

/-- A step uses up at most one change, and only by ending one. -/
theorem Guard.step_atMost (I : OImpl D O R) (Rd : K → R → Prog D A) (s : Guard D T O R K A) (t : T) {n : Nat} (h : (s.th t).todo.AtMost n) :
    (∀ b o r c, s.th t ≠ .changing b o (.ret r) c) ∧ ((s.step I Rd t).th t).todo.AtMost n ∨
    ∃ m, n = m + 1 ∧ ((s.step I Rd t).th t).todo.AtMost m := by
  by_cases hc : ∃ b o r c, s.th t = .changing b o (.ret r) c
  · obtain ⟨b, o, r, c, hp⟩ := hc
    rw [hp] at h
    obtain ⟨m, rfl, h⟩ := h
    exact .inr ⟨m, rfl, by simpa [Guard.step, hp, Guard.put, Guard.note, GPhase.todo] using h⟩
  refine .inl ⟨fun b o r c e => hc ⟨b, o, r, c, e⟩, ?_⟩
  rcases gstep_follows (I := I) Rd s t with ⟨_, h2⟩ | ⟨e, g, h1, h2, h3⟩
  · rw [h2 t]; exact h
  · rw [h3 t, if_pos rfl]
    generalize hg : (s.th t).todo = g0 at h h2
    cases g0 with
    | done => cases h2
    | lock c => rw [h2.2]; exact h
    | unlock c => rw [h2.2]; exact h
    | rlock c => rw [h2.2]; exact h
    | runlock c => rw [h2.2]; exact h
    | read k c => obtain ⟨x, _, rfl⟩ := h2; exact h x
    | change b o c =>
      obtain ⟨rfl, rfl⟩ := h2
      exfalso
      cases hp : s.th t with
      | idle g =>
        rw [hp] at hg
        have hg : g = _ := hg
        subst hg
        simp [Guard.step, hp, Guard.put] at h1
      | reading k p c => rw [hp] at hg; cases hg
      | changing b o p c =>
        cases p with
        | ret r => exact hc ⟨_, _, _, _, hp⟩
        | stop e => simp [Guard.step, hp, Prog.step] at h1
        | read a k => cases hm : s.heap.mem a <;> simp [Guard.step, hp, Prog.step, hm, Guard.put] at h1
        | write a c k => simp [Guard.step, hp, Prog.step, Guard.put] at h1
        | alloc c k => simp [Guard.step, hp, Prog.step, Guard.put] at h1

/-- As `guard_exec`, for goroutines that make at most so many changes, in schedules of any length. -/
theorem guard_exec_atMost {I : OImpl D O R} {J : List O → Prop} {n m : Nat} (hI : I.Lawful n) (Rd : K → R → Prog D A) (P : K → List O → A → Prop)
    (hR : ∀ k h r l F, l.length ≤ n → I.Obj h r l F → wp (fun _ => False) (Rd k r) (fun x h' => h' = h ∧ P k l x) h)
    {h0 : Heap D} {Z : Addr → Prop} (hZ : ∀ a, h0.next ≤ a → Z a) {ts : List T} (hts : ∀ t, t ∈ ts) (sched : List T) {k : T → Nat} (hm : m + (ts.map k).sum ≤ n)
    {s : Guard D T O R K A} {b : GBoard T O} (hk : ∀ t, (s.th t).todo.AtMost (k t)) (hi : GuardInv I J P h0 Z m s b) :
    ∃ es m', m' ≤ n ∧ (s.exec I Rd sched).log = s.log ++ es ∧ b.FitsAll P es ∧ GuardInv I J P h0 Z m' (s.exec I Rd sched) (b.replay es) := by
  induction sched generalizing m s b k with
  | nil => exact ⟨[], m, by omega, by simp [Guard.exec], trivial, hi⟩
  | cons t us ih =>
    have hb : ∀ cow o c, s.th t = .idle (.change cow o c) → m < n := by
      intro cow o c e
      have h1 := hk t
      rw [e] at h1
      obtain ⟨j, h1, _⟩ := h1
      have := (sum_less h1 ts).2 (hts t)
      omega
    have key : ∃ m1 k1, (∀ cow o r c, s.th t = .changing cow o (.ret r) c → m < m1) ∧ m ≤ m1 ∧ m1 + (ts.map k1).sum ≤ n ∧
        ∀ u, ((s.step I Rd t).th u).todo.AtMost (k1 u) := by
      rcases s.step_atMost I Rd t (hk t) with ⟨h1, h2⟩ | ⟨j, h1, h2⟩
      · refine ⟨m, k, fun b o r c h => absurd h (h1 b o r c), Nat.le_refl _, hm, fun u => ?_⟩
        by_cases e : u = t
        · subst e; exact h2
        · rw [Guard.step_other I Rd s e]; exact hk u
      · have hs := (sum_less h1 ts).2 (hts t)
        refine ⟨m + 1, fun u => if u = t then j else k u, fun _ _ _ _ _ => by omega, by omega, by omega, fun u => ?_⟩
        by_cases e : u = t
        · subst e; simpa using h2
        · rw [Guard.step_other I Rd s e]; simpa [e] using hk u
    obtain ⟨m1, k1, c1, c2, c3, c4⟩ := key
    obtain ⟨e1, l1, f1, i1⟩ := guard_step hI Rd P hR (by omega) c2 hZ hi t hb c1
    obtain ⟨e2, m2, n2, l2, f2, i2⟩ := ih c3 c4 i1
    refine ⟨e1 ++ e2, m2, n2, ?_, ?_, ?_⟩
    · simp only [Guard.exec]; rw [l2, l1, List.append_assoc]
    · rw [GBoard.fitsAll_append]; exact ⟨f1, f2⟩
    · rw [GBoard.replay_append]; exact i2

/-- What goroutines sharing a tree under a read-write lock can rely on in an infinite schedule: at any time what `GuardPromise` says, and all come to their end if the
schedule is fair. -/
structure GuardEnds (I : OImpl D O R) (Rd : K → R → Prog D A) (P : K → List O → A → Prop) (Ob : Heap D → R → List O → Prop) (l : List O) (act : T → GAct O K A)
    (s : Guard D T O R K A) (sched : Nat → T) : Prop where
  promise : ∀ m, GuardPromise P Ob (GBoard.start l) act (s.exec I Rd (firstTurns sched m))
  ends : Fair sched → ∃ n, ∀ m, n ≤ m → ∀ t, (s.exec I Rd (firstTurns sched m)).ended t

theorem GuardEnds.of_promise {I : OImpl D O R} {Rd : K → R → Prog D A} {P : K → List O → A → Prop} {Ob : Heap D → R → List O → Prop} {l : List O} {act : T → GAct O K A}
    {h : Heap D} {r : R} {sched : Nat → T} {ts : List T} (hts : ∀ t, t ∈ ts)
    (hp : ∀ m, GuardPromise P Ob (GBoard.start l) act ((Guard.start h r act).exec I Rd (firstTurns sched m))) : GuardEnds I Rd P Ob l act (Guard.start h r act) sched := by
  refine ⟨hp, fun hf => guard_fair hts _ hf fun m t ht => ?_⟩
  rcases (hp m).progress t with h | h | ⟨u, _, _, h⟩
  · exact absurd h ht
  · exact ⟨t, h, (hp m).safe t⟩
  · exact ⟨u, h, (hp m).safe u⟩

/-- Trees whose size does not matter. -/
theorem guard_ends {I : OImpl D O R} (hI : ∀ n, I.Lawful n) (ops : List (SOp O)) (hl : (Book.init : Book O).LegalAll2 I.cowOk I.inpOk ops)
    (Rd : K → R → Prog D A) (P : K → List O → A → Prop) (Ob : Heap D → R → List O → Prop)
    (hR : ∀ k h r l F, I.Obj h r l F → wp (fun _ => False) (Rd k r) (fun x h' => h' = h ∧ P k l x) h)
    (hO : ∀ h r l F, I.Obj h r l F → Ob h r l) {ts : List T} (hts : ∀ t, t ∈ ts) (J : List O → Prop) (act : T → GAct O K A)
    (ha : ∀ t, (act t).Legal J I.cowOk I.inpOk P .free []) (sched : Nat → T) :
    ∃ s, OStore.init.exec I ops = .ok s ∧ ∀ (i : Nat) r v, s.roots[i]? = some r → (Book.init.exec ops).vs[i]? = some v → J v.2 →
      (∀ j u, j ≠ i → (Book.init.exec ops).vs[j]? = some u → u.1 ≠ v.1) → GuardEnds I Rd P Ob v.2 act (Guard.start s.heap r act) sched := by
  obtain ⟨s, e, _⟩ := guard_sound (hI _) ops hl Rd P Ob (fun k h r l F _ => hR k h r l F) (fun h r l F _ => hO h r l F) J act ha [] (Nat.le_refl _)
  refine ⟨s, e, fun i r v hr hv hJ hx => .of_promise hts fun m => ?_⟩
  obtain ⟨s', e', h⟩ := guard_sound (hI _) ops hl Rd P Ob (fun k h r l F _ => hR k h r l F) (fun h r l F _ => hO h r l F) J act ha (firstTurns sched m) (Nat.le_refl _)
  rw [e] at e'
  cases e'
  exact (h i r v hr hv hJ hx).1

/-- Trees of bounded size. -/
theorem guard_ends_atMost {I : OImpl D O R} {n : Nat} (hI : I.Lawful n) (ops : List (SOp O)) (hl : (Book.init : Book O).LegalAll2 I.cowOk I.inpOk ops)
    (Rd : K → R → Prog D A) (P : K → List O → A → Prop) (Ob : Heap D → R → List O → Prop)
    (hR : ∀ k h r l F, l.length ≤ n → I.Obj h r l F → wp (fun _ => False) (Rd k r) (fun x h' => h' = h ∧ P k l x) h)
    (hO : ∀ h r l F, l.length ≤ n → I.Obj h r l F → Ob h r l) {ts : List T} (hts : ∀ t, t ∈ ts) (J : List O → Prop) (act : T → GAct O K A)
    (ha : ∀ t, (act t).Legal J I.cowOk I.inpOk P .free []) (k : T → Nat) (hk : ∀ t, (act t).AtMost (k t)) (hn : ops.length + (ts.map k).sum ≤ n) (sched : Nat → T) :
    ∃ s, OStore.init.exec I ops = .ok s ∧ ∀ (i : Nat) r v, s.roots[i]? = some r → (Book.init.exec ops).vs[i]? = some v → J v.2 →
      (∀ j u, j ≠ i → (Book.init.exec ops).vs[j]? = some u → u.1 ≠ v.1) → GuardEnds I Rd P Ob v.2 act (Guard.start s.heap r act) sched := by
  obtain ⟨s, e, i1⟩ := oexec_inv hI (oinv_init I) ops (by omega) hl
  refine ⟨s, e, fun i r v hr hv hJ hx => .of_promise hts fun m => ?_⟩
  obtain ⟨F, f1, f2⟩ := i1.get hr hv
  have h0 : GuardInv (T := T) (K := K) (A := A) I J P s.heap (fun a => F a ∨ s.heap.next ≤ a) ops.length (Guard.start s.heap r act) (GBoard.start v.2) := by
    refine ⟨i1.ok, Nat.le_refl _, fun _ _ _ => rfl, rfl, rfl, .inl rfl, List.nodup_nil, (by simp only [GBoard.start]; omega), fun _ => hJ,
      fun _ => ⟨F, f1, fun x hx => .inl hx⟩, fun t => ?_⟩
    have : modeOf (Guard.start s.heap r act).writer (Guard.start s.heap r act).readers t = .free := by simp [modeOf, Guard.start]
    rw [this]
    exact GAct.Legal.any (ha t) _
  obtain ⟨es, m1, n1, l1, fit, inv⟩ := guard_exec_atMost hI Rd P hR (fun a h => .inr h) hts (firstTurns sched m) hn (s := Guard.start s.heap r act) (fun t => hk t) h0
  have l1 : ((Guard.start s.heap r act).exec I Rd (firstTurns sched m)).log = es := by rw [l1]; rfl
  exact GuardInv.promise hO n1 (gexec_follows Rd _ .nil) (by rw [l1]; exact fit) (by rw [l1]; exact inv)

end Verif.Heap
