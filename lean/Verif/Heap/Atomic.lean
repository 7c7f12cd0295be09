import Verif.Heap.Publish

/-!
# A tree in a variable as an atomic map

Goroutines that change the tree in the variable under the lock (take the lock, load, call, store, give the lock back) and ask it without
(load, read).  The record of events of such goroutines is the record of an atomic map.
-/

namespace Verif.Heap
open Prog
variable {D T O R K A : Type}

/-- A goroutine with such operations only. -/
def scriptA : List (Do O K) → Act O K A
  | [] => .done
  | .upd o :: l => .lock (.load (.call (.cow 0 o) (.store 1 (.drop 0 (.drop 0 (.unlock (scriptA l)))))))
  | .get k :: l => .load (.read 0 k fun _ => .drop 0 (scriptA l))

/-- Changes that are covered whatever the tree is. -/
def UpdOk (ok : List O → O → Prop) : List (Do O K) → Prop
  | [] => True
  | .upd o :: l => (∀ c, ok c o) ∧ UpdOk ok l
  | .get _ :: l => UpdOk ok l

theorem scriptA_legal (ok iok : List O → O → Prop) (P : K → List O → A → Prop) (l : List (Do O K)) (hl : UpdOk ok l) (n : Nat) :
    (scriptA l : Act O K A).Legal ok iok P false ⟨n, []⟩ := by
  induction l generalizing n with
  | nil => rfl
  | cons d l ih =>
    cases d with
    | upd o =>
      refine ⟨rfl, fun c => ⟨rfl, ?_, trivial, rfl, ?_, rfl, ?_⟩⟩
      · intro v _; exact hl.1 v.2
      · simp [Book.step, Book.flat]
      · simp only [Book.step, Book.flat, List.map_nil, List.nil_append, List.getElem?_cons_zero, List.cons_append, List.map_cons, List.eraseIdx_cons_zero]
        exact ih hl.2 1
    | get k =>
      intro c
      simp only [Act.Legal, List.nil_append, List.getElem?_cons_zero]
      intro a _
      simp only [Book.step, List.eraseIdx_cons_zero]
      exact ih hl n

/-! ## The record follows the goroutines -/

/-- Who made the event. -/
def PEvent.who : PEvent T O K A → T
  | .load t => t
  | .drop t _ => t
  | .call t _ => t
  | .store t _ => t
  | .answer t _ _ _ => t
  | .lock t => t
  | .unlock t => t

/-- Event `e` takes goroutine `t` from the first to the second. -/
def Act.On (t : T) : Act O K A → PEvent T O K A → Act O K A → Prop
  | .done, _, _ => False
  | .load c, e, g => e = .load t ∧ g = c
  | .drop i c, e, g => e = .drop t i ∧ g = c
  | .read i k c, e, g => ∃ x, e = .answer t i k x ∧ g = c x
  | .lock c, e, g => e = .lock t ∧ g = c
  | .call op c, e, g => e = .call t op ∧ g = c
  | .store i c, e, g => e = .store t i ∧ g = c
  | .unlock c, e, g => e = .unlock t ∧ g = c

variable [DecidableEq T]

/-- The record takes the goroutines from `act` to `gs`. -/
inductive Follows (act : T → Act O K A) : List (PEvent T O K A) → (T → Act O K A) → Prop where
  | nil : Follows act [] act
  | snoc {log gs e t g} : Follows act log gs → (gs t).On t e g → Follows act (log ++ [e]) (fun u => if u = t then g else gs u)

/-- What a goroutine has before it. -/
def Phase.todo : Phase D O R K A → Act O K A
  | .idle g => g
  | .calling op _ g => .call op g
  | .reading i k _ c => .read i k c

theorem step_follows {I : OImpl D O R} (Rd : K → R → Prog D A) (s : Hub D T O R K A) (t : T) :
    ((s.step I Rd t).log = s.log ∧ ∀ u, ((s.step I Rd t).th u).phase.todo = (s.th u).phase.todo) ∨
    ∃ e g, (s.step I Rd t).log = s.log ++ [e] ∧ (s.th t).phase.todo.On t e g ∧
      ∀ u, ((s.step I Rd t).th u).phase.todo = if u = t then g else (s.th u).phase.todo := by
  cases hp : (s.th t).phase with
  | idle g =>
    cases g with
    | done => exact .inl (by simp [Hub.step, hp])
    | load c =>
      refine .inr ⟨.load t, c, by simp [Hub.step, hp, Hub.note, Hub.put], ⟨rfl, rfl⟩, fun u => ?_⟩
      by_cases h : u = t <;> simp [Hub.step, hp, Hub.note, Hub.put, h, Phase.todo]
    | drop i c =>
      refine .inr ⟨.drop t i, c, by simp [Hub.step, hp, Hub.note, Hub.put], ⟨rfl, rfl⟩, fun u => ?_⟩
      by_cases h : u = t <;> simp [Hub.step, hp, Hub.note, Hub.put, h, Phase.todo]
    | read i k c =>
      cases hr : (s.th t).roots[i]? with
      | none =>
        refine .inr ⟨.answer t i k none, c none, by simp [Hub.step, hp, hr, Hub.note, Hub.put], ⟨none, rfl, rfl⟩, fun u => ?_⟩
        by_cases h : u = t <;> simp [Hub.step, hp, hr, Hub.note, Hub.put, h, Phase.todo]
      | some r =>
        refine .inl ⟨by simp [Hub.step, hp, hr, Hub.put], fun u => ?_⟩
        by_cases h : u = t <;> simp [Hub.step, hp, hr, Hub.put, h, Phase.todo]
    | lock c =>
      cases hh : s.holder with
      | none =>
        refine .inr ⟨.lock t, c, by simp [Hub.step, hp, hh, Hub.note, Hub.put], ⟨rfl, rfl⟩, fun u => ?_⟩
        by_cases h : u = t <;> simp [Hub.step, hp, hh, Hub.note, Hub.put, h, Phase.todo]
      | some v => exact .inl (by simp [Hub.step, hp, hh])
    | call op c =>
      refine .inl ⟨by simp [Hub.step, hp, Hub.put], fun u => ?_⟩
      by_cases h : u = t <;> simp [Hub.step, hp, Hub.put, h, Phase.todo]
    | store i c =>
      refine .inr ⟨.store t i, c, by simp [Hub.step, hp, Hub.note, Hub.put], ⟨rfl, rfl⟩, fun u => ?_⟩
      by_cases h : u = t <;> simp [Hub.step, hp, Hub.note, Hub.put, h, Phase.todo]
    | unlock c =>
      refine .inr ⟨.unlock t, c, by simp [Hub.step, hp, Hub.note, Hub.put], ⟨rfl, rfl⟩, fun u => ?_⟩
      by_cases h : u = t <;> simp [Hub.step, hp, Hub.note, Hub.put, h, Phase.todo]
  | calling op p g =>
    cases p with
    | ret rs =>
      refine .inr ⟨.call t op, g, by simp [Hub.step, hp, Hub.note, Hub.put], ⟨rfl, rfl⟩, fun u => ?_⟩
      by_cases h : u = t <;> simp [Hub.step, hp, Hub.note, Hub.put, h, Phase.todo]
    | stop e => exact .inl (by simp [Hub.step, hp, Prog.step])
    | read a k =>
      cases hm : s.heap.mem a with
      | none =>
        refine .inl ⟨by simp [Hub.step, hp, Prog.step, hm, Hub.put], fun u => ?_⟩
        by_cases h : u = t <;> simp [Hub.step, hp, Prog.step, hm, Hub.put, h, Phase.todo]
      | some c =>
        refine .inl ⟨by simp [Hub.step, hp, Prog.step, hm, Hub.put], fun u => ?_⟩
        by_cases h : u = t <;> simp [Hub.step, hp, Prog.step, hm, Hub.put, h, Phase.todo]
    | write a c k =>
      refine .inl ⟨by simp [Hub.step, hp, Prog.step, Hub.put], fun u => ?_⟩
      by_cases h : u = t <;> simp [Hub.step, hp, Prog.step, Hub.put, h, Phase.todo]
    | alloc c k =>
      refine .inl ⟨by simp [Hub.step, hp, Prog.step, Hub.put], fun u => ?_⟩
      by_cases h : u = t <;> simp [Hub.step, hp, Prog.step, Hub.put, h, Phase.todo]
  | reading i k p g =>
    cases p with
    | ret x =>
      refine .inr ⟨.answer t i k (some x), g (some x), by simp [Hub.step, hp, Hub.note, Hub.put], ⟨some x, rfl, rfl⟩, fun u => ?_⟩
      by_cases h : u = t <;> simp [Hub.step, hp, Hub.note, Hub.put, h, Phase.todo]
    | stop e => exact .inl (by simp [Hub.step, hp, Prog.step])
    | read a k =>
      cases hm : s.heap.mem a with
      | none =>
        refine .inl ⟨by simp [Hub.step, hp, Prog.step, hm, Hub.put], fun u => ?_⟩
        by_cases h : u = t <;> simp [Hub.step, hp, Prog.step, hm, Hub.put, h, Phase.todo]
      | some c =>
        refine .inl ⟨by simp [Hub.step, hp, Prog.step, hm, Hub.put], fun u => ?_⟩
        by_cases h : u = t <;> simp [Hub.step, hp, Prog.step, hm, Hub.put, h, Phase.todo]
    | write a c k =>
      refine .inl ⟨by simp [Hub.step, hp, Prog.step, Hub.put], fun u => ?_⟩
      by_cases h : u = t <;> simp [Hub.step, hp, Prog.step, Hub.put, h, Phase.todo]
    | alloc c k =>
      refine .inl ⟨by simp [Hub.step, hp, Prog.step, Hub.put], fun u => ?_⟩
      by_cases h : u = t <;> simp [Hub.step, hp, Prog.step, Hub.put, h, Phase.todo]

theorem exec_follows {I : OImpl D O R} (Rd : K → R → Prog D A) {act : T → Act O K A} (sched : List T) {s : Hub D T O R K A}
    (hs : Follows act s.log fun t => (s.th t).phase.todo) :
    Follows act (s.exec I Rd sched).log fun t => ((s.exec I Rd sched).th t).phase.todo := by
  induction sched generalizing s with
  | nil => exact hs
  | cons t ts ih =>
    apply ih
    rcases step_follows (I := I) Rd s t with ⟨h1, h2⟩ | ⟨e, g, h1, h2, h3⟩
    · rw [h1, show (fun u => ((s.step I Rd t).th u).phase.todo) = _ from funext h2]; exact hs
    · rw [h1, show (fun u => ((s.step I Rd t).th u).phase.todo) = _ from funext h3]; exact hs.snoc h2

/-- `hub_sound`, and the record is what the goroutines were to do. -/
theorem hub_sound_follows {I : OImpl D O R} {n : Nat} (hI : I.Lawful n) (ops : List (SOp O)) (hl : (Book.init : Book O).LegalAll2 I.cowOk I.inpOk ops)
    (Rd : K → R → Prog D A) (P : K → List O → A → Prop) (Ob : Heap D → R → List O → Prop)
    (hR : ∀ k h r l F, l.length ≤ n → I.Obj h r l F → wp (fun _ => False) (Rd k r) (fun x h' => h' = h ∧ P k l x) h)
    (hO : ∀ h r l F, l.length ≤ n → I.Obj h r l F → Ob h r l) (act : T → Act O K A)
    (ha : ∀ t, (act t).Legal I.cowOk I.inpOk P false ⟨1, []⟩) (sched : List T) (hn : ops.length + sched.length ≤ n) :
    ∃ s, OStore.init.exec I ops = .ok s ∧ ∀ (i : Nat) r v, s.roots[i]? = some r → (Book.init.exec ops).vs[i]? = some v →
      (Follows act ((Hub.start s.heap r act).exec I Rd sched).log fun t => (((Hub.start s.heap r act).exec I Rd sched).th t).phase.todo) ∧
      HubPromise I Rd P Ob (Board.start v.2) ((Hub.start s.heap r act).exec I Rd sched) ∧
      ∀ pre post t j k p c, sched = pre ++ post → (((Hub.start s.heap r act).exec I Rd pre).th t).phase = .reading j k p c →
        p.left ((Hub.start s.heap r act).exec I Rd pre).heap < post.count t →
        ∃ a es, ((Hub.start s.heap r act).exec I Rd sched).log = ((Hub.start s.heap r act).exec I Rd pre).log ++ es ∧ .answer t j k (some a) ∈ es := by
  obtain ⟨s, e, h⟩ := hub_sound hI ops hl Rd P Ob hR hO act ha sched hn
  exact ⟨s, e, fun i r v hr hv => ⟨exec_follows Rd sched .nil, h i r v hr hv⟩⟩

/-! ## Records of scripts -/

/-- Where a goroutine with a script stands: what is still to take effect, and the question waiting for its answer with the chain it is about. -/
inductive Spot (bd : Board T O) (t : T) : Act O K A → List (Do O K) → Option (K × List O) → Prop where
  | rest (l) : bd.held t = [] → bd.holder ≠ some t → Spot bd t (scriptA l) l none
  | u1 (o l) : bd.held t = [] → bd.holder = some t →
    Spot bd t (.load (.call (.cow 0 o) (.store 1 (.drop 0 (.drop 0 (.unlock (scriptA l))))))) (.upd o :: l) none
  | u2 (o l) : bd.held t = [bd.pub] → bd.holder = some t → Spot bd t (.call (.cow 0 o) (.store 1 (.drop 0 (.drop 0 (.unlock (scriptA l)))))) (.upd o :: l) none
  | u3 (o l) : bd.held t = [bd.pub, o :: bd.pub] → bd.holder = some t → Spot bd t (.store 1 (.drop 0 (.drop 0 (.unlock (scriptA l))))) (.upd o :: l) none
  | u4 (x y l) : bd.held t = [x, y] → bd.holder = some t → Spot bd t (.drop 0 (.drop 0 (.unlock (scriptA l)))) l none
  | u5 (y l) : bd.held t = [y] → bd.holder = some t → Spot bd t (.drop 0 (.unlock (scriptA l))) l none
  | u6 (l) : bd.held t = [] → bd.holder = some t → Spot bd t (.unlock (scriptA l)) l none
  | g1 (k c l) : bd.held t = [c] → bd.holder ≠ some t → Spot bd t (.read 0 k fun _ => .drop 0 (scriptA l)) l (some (k, c))
  | g2 (c l) : bd.held t = [c] → bd.holder ≠ some t → Spot bd t (.drop 0 (scriptA l)) l none

omit [DecidableEq T] in
/-- Other goroutines' events. -/
theorem Spot.keep {bd bd' : Board T O} {t : T} {g : Act O K A} {l : List (Do O K)} {p : Option (K × List O)} (h : Spot bd t g l p)
    (h1 : bd'.held t = bd.held t) (h2 : bd'.holder = some t ↔ bd.holder = some t) (h3 : bd.holder = some t → bd'.pub = bd.pub) : Spot bd' t g l p := by
  cases h with
  | rest _ a b => exact .rest _ (h1.trans a) (fun h => b (h2.1 h))
  | u1 _ _ a b => exact .u1 _ _ (h1.trans a) (h2.2 b)
  | u2 _ _ a b => exact .u2 _ _ (by rw [h1, h3 b]; exact a) (h2.2 b)
  | u3 _ _ a b => exact .u3 _ _ (by rw [h1, h3 b]; exact a) (h2.2 b)
  | u4 _ _ _ a b => exact .u4 _ _ _ (h1.trans a) (h2.2 b)
  | u5 _ _ a b => exact .u5 _ _ (h1.trans a) (h2.2 b)
  | u6 _ a b => exact .u6 _ (h1.trans a) (h2.2 b)
  | g1 _ _ _ a b => exact .g1 _ _ _ (h1.trans a) (fun h => b (h2.1 h))
  | g2 _ _ a b => exact .g2 _ _ (h1.trans a) (fun h => b (h2.1 h))

/-- Who did what, without answers and positions. -/
def Lin.sig (e : Lin T O K A) : T × Do O K := (e.who, e.op)

def chainSig (l : List O) : List (T × Do O K) → List O
  | [] => l
  | (_, .upd o) :: z => chainSig (o :: l) z
  | (_, .get _) :: z => chainSig l z

omit [DecidableEq T] in
theorem chainAfter_sig (l : List O) (z : List (Lin T O K A)) : chainAfter l z = chainSig l (z.map Lin.sig) := by
  induction z generalizing l with
  | nil => rfl
  | cons e z ih =>
    obtain ⟨p, t, o, x⟩ := e
    cases o <;> simp only [chainAfter, List.map_cons, Lin.sig, chainSig] <;> exact ih _

omit [DecidableEq T] in
theorem chainSig_append (l : List O) (y z : List (T × Do O K)) : chainSig l (y ++ z) = chainSig (chainSig l y) z := by
  induction y generalizing l with
  | nil => rfl
  | cons e y ih =>
    obtain ⟨t, o⟩ := e
    cases o <;> simp only [List.cons_append, chainSig] <;> exact ih _

theorem opsOf_sig (t : T) (z : List (Lin T O K A)) : opsOf t z = (z.map Lin.sig).filterMap fun e => if e.1 = t then some e.2 else none := by
  simp only [opsOf, List.filterMap_map]; rfl

omit [DecidableEq T] in
theorem atomic_iff (P : K → List O → A → Prop) (l : List O) (z : List (Lin T O K A)) :
    Atomic P l z ↔ ∀ (j p : Nat) t k a, z[j]? = some ⟨p, t, .get k, some a⟩ → P k (chainAfter l (z.take j)) a := by
  induction z generalizing l with
  | nil => simp [Atomic]
  | cons e z ih =>
    obtain ⟨p, t, o, x⟩ := e
    cases o with
    | upd o =>
      simp only [Atomic]
      rw [ih]
      constructor
      · intro h j p' t' k a hj
        cases j with
        | zero => simp at hj
        | succ j => exact h j p' t' k a (by simpa using hj)
      · intro h j p' t' k a hj
        exact h (j + 1) p' t' k a (by simpa using hj)
    | get k0 =>
      simp only [Atomic]
      rw [ih]
      constructor
      · rintro ⟨h0, h⟩ j p' t' k a hj
        cases j with
        | zero =>
          simp only [List.getElem?_cons_zero, Option.some.injEq, Lin.mk.injEq, Do.get.injEq] at hj
          obtain ⟨_, _, rfl, e⟩ := hj
          exact h0 a e
        | succ j => exact h j p' t' k a (by simpa using hj)
      · intro h
        refine ⟨fun a e => h 0 p t k0 a (by simp [e]), fun j p' t' k a hj => h (j + 1) p' t' k a (by simpa using hj)⟩

/-- The operations that have taken effect, up to some point of the record. -/
structure LinInv (P : K → List O → A → Prop) (l0 : List O) (script rest : T → List (Do O K)) (pend : T → Option (K × List O)) (log : List (PEvent T O K A))
    (pub : List O) (z : List (Lin T O K A)) : Prop where
  pub : pub = chainAfter l0 z
  atomic : Atomic P l0 z
  incr : z.Pairwise fun a b => a.pos < b.pos
  evt : ∀ e ∈ z, log[e.pos]? = some (match e.op with
    | .upd _ => .store e.who 1
    | .get _ => .load e.who)
  ops : ∀ t, opsOf t z ++ rest t = script t
  ans : ∀ t, linAnswers t z = answersOf t log ++ (if (pend t).isSome then [none] else [])
  known : ∀ t, none ∉ answersOf t log
  wait : ∀ t k c, pend t = some (k, c) → ∃ j p, z[j]? = some ⟨p, t, .get k, none⟩ ∧ chainAfter l0 (z.take j) = c ∧ opsOf t (z.drop (j + 1)) = []

omit [DecidableEq T] in
theorem evt_lt {log : List (PEvent T O K A)} {i : Nat} {e : PEvent T O K A} (h : log[i]? = some e) : i < log.length := by
  rcases Nat.lt_or_ge i log.length with h1 | h1
  · exact h1
  · simp [List.getElem?_eq_none h1] at h

theorem answersOf_snoc (t : T) (log : List (PEvent T O K A)) (e : PEvent T O K A) : answersOf t (log ++ [e]) = answersOf t log ++ answersOf t [e] := by
  simp only [answersOf, List.filterMap_append]

/-- An event that lets nothing take effect and is no answer. -/
theorem LinInv.skip {P : K → List O → A → Prop} {l0 : List O} {script rest : T → List (Do O K)} {pend : T → Option (K × List O)} {log : List (PEvent T O K A)}
    {pub : List O} {z : List (Lin T O K A)} (h : LinInv P l0 script rest pend log pub z) (e : PEvent T O K A) (he : ∀ t, answersOf t [e] = []) :
    LinInv P l0 script rest pend (log ++ [e]) pub z := by
  refine ⟨h.pub, h.atomic, h.incr, fun x hx => ?_, h.ops, fun t => ?_, fun t => ?_, h.wait⟩
  · have := h.evt x hx
    rw [List.getElem?_append_left (evt_lt this)]; exact this
  · rw [answersOf_snoc, he t, List.append_nil]; exact h.ans t
  · rw [answersOf_snoc, he t, List.append_nil]; exact h.known t

/-- One more operation takes effect. -/
theorem LinInv.add {P : K → List O → A → Prop} {l0 : List O} {script rest : T → List (Do O K)} {pend : T → Option (K × List O)} {log : List (PEvent T O K A)}
    {pub : List O} {z : List (Lin T O K A)} (h : LinInv P l0 script rest pend log pub z) (t : T) (d : Do O K) (l : List (Do O K)) (hr : rest t = d :: l) (hp : pend t = none) :
    LinInv P l0 script (fun u => if u = t then l else rest u)
      (fun u => if u = t then (match d with | .upd _ => none | .get k => some (k, pub)) else pend u)
      (log ++ [match d with | .upd _ => .store t 1 | .get _ => .load t])
      (match d with | .upd o => o :: pub | .get _ => pub) (z ++ [⟨log.length, t, d, none⟩]) := by
  have e0 : ∀ u, ∀ e : PEvent T O K A, e = .store t 1 ∨ e = .load t → answersOf u [e] = [] := by
    rintro u e (rfl | rfl) <;> rfl
  refine ⟨?_, ?_, ?_, ?_, ?_, ?_, ?_, ?_⟩
  · have := h.pub
    rw [chainAfter_sig] at this
    rw [chainAfter_sig, List.map_append, chainSig_append, ← this]
    cases d <;> rfl
  · rw [atomic_iff]
    intro j p u k a hj
    rw [List.getElem?_append] at hj
    split at hj
    · rename_i hlt
      rw [List.take_append_of_le_length (by omega)]
      exact (atomic_iff P l0 z).1 h.atomic j p u k a hj
    · exfalso
      cases hjz : j - z.length with
      | zero => simp [hjz] at hj
      | succ i => simp [hjz] at hj
  · rw [List.pairwise_append]
    refine ⟨h.incr, by simp, fun a ha b hb => ?_⟩
    rw [List.mem_singleton] at hb
    subst hb
    exact evt_lt (h.evt a ha)
  · intro e he
    rw [List.mem_append, List.mem_singleton] at he
    rcases he with he | rfl
    · have := h.evt e he
      rw [List.getElem?_append_left (evt_lt this)]; exact this
    · simp only [List.getElem?_append_right (Nat.le_refl _), Nat.sub_self, List.getElem?_cons_zero]
      cases d <;> rfl
  · intro u
    have := h.ops u
    by_cases e : u = t
    · subst e
      rw [hr] at this
      simp only [opsOf, List.filterMap_append, List.filterMap_cons, if_true, List.filterMap_nil, List.append_assoc, List.cons_append, List.nil_append]
      exact this
    · have e' : ¬ t = u := fun h => e h.symm
      simp only [opsOf, List.filterMap_append, List.filterMap_cons, if_neg e, if_neg e', List.filterMap_nil, List.append_nil]
      exact this
  · intro u
    have := h.ans u
    rw [answersOf_snoc]
    rw [e0 u _ (by cases d <;> simp), List.append_nil]
    by_cases e : u = t
    · subst e
      simp only [hp, Option.isSome_none, Bool.false_eq_true, if_false, List.append_nil] at this
      cases d <;> simp [linAnswers] <;> simpa [linAnswers] using this
    · have e' : ¬ t = u := fun h => e h.symm
      simp only [if_neg e]
      cases d <;> simp [linAnswers, e'] <;> simpa [linAnswers] using this
  · intro u
    rw [answersOf_snoc, e0 u _ (by cases d <;> simp), List.append_nil]
    exact h.known u
  · intro u k c hu
    by_cases e : u = t
    · subst e
      simp only [if_true] at hu
      cases d with
      | upd o => cases hu
      | get k0 =>
        simp only [Option.some.injEq, Prod.mk.injEq] at hu
        obtain ⟨rfl, rfl⟩ := hu
        refine ⟨z.length, log.length, by simp, by simp [h.pub], by simp [opsOf]⟩
    · simp only [if_neg e] at hu
      obtain ⟨j, p, h1, h2, h3⟩ := h.wait u k c hu
      have hj : j < z.length := by
        rcases Nat.lt_or_ge j z.length with h | h
        · exact h
        · simp [List.getElem?_eq_none h] at h1
      have e' : ¬ t = u := fun h => e h.symm
      refine ⟨j, p, by rw [List.getElem?_append_left hj]; exact h1, by rw [List.take_append_of_le_length (by omega)]; exact h2, ?_⟩
      rw [List.drop_append_of_le_length (by omega)]
      simp only [opsOf, List.filterMap_append, List.filterMap_cons, if_neg e', List.filterMap_nil, List.append_nil]
      exact h3

omit [DecidableEq T] in
theorem set_sig (z : List (Lin T O K A)) (j p : Nat) (t : T) (k : K) (x y : Option A) (h : z[j]? = some ⟨p, t, .get k, x⟩) : (z.set j ⟨p, t, .get k, y⟩).map Lin.sig = z.map Lin.sig := by
  rw [List.map_set]
  apply List.ext_getElem?
  intro i
  rw [List.getElem?_set]
  split
  · rename_i e
    subst e
    have hj : j < z.length := by
      rcases Nat.lt_or_ge j z.length with h1 | h1
      · exact h1
      · simp [List.getElem?_eq_none h1] at h
    rw [List.getElem?_eq_getElem hj, Option.some.injEq] at h
    simp [h, Lin.sig, hj]
  · rfl

theorem linAnswers_nil (t : T) (z : List (Lin T O K A)) (h : opsOf t z = []) : linAnswers t z = [] := by
  simp only [opsOf, linAnswers, List.filterMap_eq_nil_iff] at *
  rintro ⟨p, u, o, x⟩ he
  have := h _ he
  cases o with
  | upd o => rfl
  | get k => simpa using this

/-- An answer arrives. -/
theorem LinInv.fill {P : K → List O → A → Prop} {l0 : List O} {script rest : T → List (Do O K)} {pend : T → Option (K × List O)} {log : List (PEvent T O K A)}
    {pub : List O} {z : List (Lin T O K A)} (h : LinInv P l0 script rest pend log pub z) (t : T) (i : Nat) (k : K) (c : List O) (hp : pend t = some (k, c)) (a : A) (ha : P k c a) :
    ∃ z', LinInv P l0 script rest (fun u => if u = t then none else pend u) (log ++ [.answer t i k (some a)]) pub z' := by
  obtain ⟨j, p, h1, h2, h3⟩ := h.wait t k c hp
  have hj : j < z.length := by
    rcases Nat.lt_or_ge j z.length with h | h
    · exact h
    · simp [List.getElem?_eq_none h] at h1
  have hsig := set_sig z j p t k none (some a) h1
  have htake : ∀ i, ((z.set j ⟨p, t, .get k, some a⟩).take i).map Lin.sig = (z.take i).map Lin.sig := by
    intro i; rw [List.map_take, hsig, List.map_take]
  have hdrop : ∀ i, ((z.set j ⟨p, t, .get k, some a⟩).drop i).map Lin.sig = (z.drop i).map Lin.sig := by
    intro i; rw [List.map_drop, hsig, List.map_drop]
  have hz : z = z.take j ++ ⟨p, t, .get k, none⟩ :: z.drop (j + 1) := by
    rw [List.getElem?_eq_getElem hj] at h1
    simp only [Option.some.injEq] at h1
    rw [← h1]
    simp
  have hz' : z.set j ⟨p, t, .get k, some a⟩ = z.take j ++ ⟨p, t, .get k, some a⟩ :: z.drop (j + 1) := by
    rw [List.set_eq_take_append_cons_drop, if_pos hj]
  refine ⟨z.set j ⟨p, t, .get k, some a⟩, ?_, ?_, ?_, ?_, ?_, ?_, ?_, ?_⟩
  · rw [chainAfter_sig, hsig, ← chainAfter_sig]; exact h.pub
  · rw [atomic_iff]
    intro j' p' t' k' a' hj'
    rw [chainAfter_sig, htake, ← chainAfter_sig]
    rw [List.getElem?_set] at hj'
    split at hj'
    · rename_i e
      subst e
      simp only [Option.some.injEq, Lin.mk.injEq, Do.get.injEq] at hj'
      obtain ⟨_, _, rfl, rfl⟩ := hj'
      rw [h2]; exact ha
    · exact (atomic_iff P l0 z).1 h.atomic j' p' t' k' a' hj'
  · have := h.incr
    rw [hz, List.pairwise_append, List.pairwise_cons] at this
    rw [hz', List.pairwise_append, List.pairwise_cons]
    refine ⟨this.1, ⟨fun b hb => this.2.1.1 b hb, this.2.1.2⟩, fun x hx b hb => ?_⟩
    rcases List.mem_cons.1 hb with rfl | hb
    · exact this.2.2 x hx ⟨p, t, .get k, none⟩ (List.mem_cons_self ..)
    · exact this.2.2 x hx b (List.mem_cons_of_mem _ hb)
  · intro e he
    have key : ∃ e' ∈ z, e'.pos = e.pos ∧ e'.op = e.op ∧ e'.who = e.who := by
      rw [hz', List.mem_append, List.mem_cons] at he
      rcases he with he | rfl | he
      · exact ⟨e, List.mem_of_mem_take he, rfl, rfl, rfl⟩
      · exact ⟨_, List.mem_of_getElem? h1, rfl, rfl, rfl⟩
      · exact ⟨e, List.mem_of_mem_drop he, rfl, rfl, rfl⟩
    obtain ⟨e', he', k1, k2, k3⟩ := key
    have := h.evt e' he'
    rw [k1, k2, k3] at this
    rw [List.getElem?_append_left (evt_lt this)]; exact this
  · intro u
    rw [opsOf_sig, hsig, ← opsOf_sig]; exact h.ops u
  · intro u
    have hu := h.ans u
    rw [hz] at hu
    rw [hz', answersOf_snoc]
    by_cases e : u = t
    · subst e
      have h4 := linAnswers_nil u _ h3
      simp only [linAnswers] at hu h4 ⊢
      simp only [List.filterMap_append, List.filterMap_cons, if_true, h4, hp, Option.isSome_some] at hu ⊢
      have := List.append_inj_left' hu rfl
      rw [this]
      simp [answersOf]
    · have e' : ¬ t = u := fun h => e h.symm
      simp only [linAnswers] at hu ⊢
      simp only [List.filterMap_append, List.filterMap_cons, if_neg e', if_neg e] at hu ⊢
      rw [hu]
      simp [answersOf, e']
  · intro u
    rw [answersOf_snoc, List.mem_append]
    rintro (hx | hx)
    · exact h.known u hx
    · by_cases e : t = u <;> simp [answersOf, e] at hx
  · intro u k' c' hu
    by_cases e : u = t
    · simp [e] at hu
    · simp only [if_neg e] at hu
      obtain ⟨j', p', g1, g2, g3⟩ := h.wait u k' c' hu
      refine ⟨j', p', ?_, by rw [chainAfter_sig, htake, ← chainAfter_sig]; exact g2, by rw [opsOf_sig, hdrop, ← opsOf_sig]; exact g3⟩
      rw [List.getElem?_set_ne]
      · exact g1
      · rintro rfl
        rw [h1] at g1
        simp only [Option.some.injEq, Lin.mk.injEq] at g1
        exact e g1.2.1.symm

/-- Records of goroutines with scripts that fit the board are records of an atomic map. -/
theorem script_atomic (P : K → List O → A → Prop) (l0 : List O) (script : T → List (Do O K)) {log : List (PEvent T O K A)} {gs : T → Act O K A}
    (hf : Follows (fun t => scriptA (script t)) log gs) (hb : (Board.start l0 : Board T O).FitsAll P log) :
    ∃ rest pend z, LinInv P l0 script rest pend log ((Board.start l0 : Board T O).replay log).pub z ∧
      ∀ t, Spot ((Board.start l0 : Board T O).replay log) t (gs t) (rest t) (pend t) := by
  induction hf with
  | nil =>
    refine ⟨script, fun _ => none, [], ⟨rfl, trivial, .nil, by simp, fun t => rfl, fun t => rfl, fun t => by simp [answersOf], by simp⟩, fun t => .rest _ rfl (by simp [Board.replay, Board.start])⟩
  | @snoc log gs e t g hf hon ih =>
    rw [Board.fitsAll_append] at hb
    obtain ⟨hb1, hfit, _⟩ := hb
    obtain ⟨rest, pend, z, hz, hsp⟩ := ih hb1
    rw [Board.replay_append]
    generalize (Board.start l0 : Board T O).replay log = bd at *
    simp only [Board.replay]
    have same : ∀ (x : List (Do O K)) u, rest t = x → (if u = t then x else rest u) = rest u := by
      intro x u hx
      by_cases h : u = t
      · subst h; simp [hx]
      · simp [h]
    have samep : ∀ (x : Option (K × List O)) u, pend t = x → (if u = t then x else pend u) = pend u := by
      intro x u hx
      by_cases h : u = t
      · subst h; simp [hx]
      · simp [h]
    -- events of `t` that keep `rest` and `pend`
    have quiet : (∀ u, answersOf u [e] = []) → (bd.step e).pub = bd.pub → Spot (bd.step e) t g (rest t) (pend t) →
        (∀ u, u ≠ t → (bd.step e).held u = bd.held u) → (∀ u, u ≠ t → ((bd.step e).holder = some u ↔ bd.holder = some u)) →
        ∃ rest pend z, LinInv P l0 script rest pend (log ++ [e]) (bd.step e).pub z ∧ ∀ u, Spot (bd.step e) u (if u = t then g else gs u) (rest u) (pend u) := by
      intro q1 q2 q3 q4 q5
      refine ⟨rest, pend, z, ?_, fun u => ?_⟩
      · rw [q2]; exact hz.skip e q1
      · by_cases h : u = t
        · subst h; simpa using q3
        · simp only [if_neg h]
          exact (hsp u).keep (q4 u h) (q5 u h) fun _ => q2
    have ht := hsp t
    have setHeld_other : ∀ (ls : List (List O)) u, u ≠ t → (bd.setHeld t ls).held u = bd.held u := by intro ls u hu; simp [Board.setHeld, hu]
    have setHeld_self : ∀ (ls : List (List O)), (bd.setHeld t ls).held t = ls := by intro ls; simp [Board.setHeld]
    generalize hgt : gs t = gt at hon ht
    generalize hrt : rest t = rt at ht
    generalize hpt : pend t = pt at ht
    cases ht with
    | rest _ a b =>
      cases rt with
      | nil => exact hon.elim
      | cons d l =>
        cases d with
        | upd o =>
          obtain ⟨rfl, rfl⟩ := hon
          refine quiet (fun u => rfl) rfl ?_ (fun u _ => rfl) (fun u hu => ?_)
          · rw [hrt, hpt]; exact .u1 o l a rfl
          · have h1 : bd.holder = none := hfit
            have : ¬ t = u := fun h => hu h.symm
            simp [Board.step, h1, this]
        | get k =>
          obtain ⟨rfl, rfl⟩ := hon
          refine ⟨_, _, _, hz.add t (.get k) l hrt hpt, fun u => ?_⟩
          by_cases h : u = t
          · subst h
            simp only [if_true]
            refine .g1 k bd.pub l ?_ b
            simp [Board.step, setHeld_self, a]
          · simp only [if_neg h]
            exact (hsp u).keep (setHeld_other _ u h) Iff.rfl fun _ => rfl
    | u1 o l a b =>
      obtain ⟨rfl, rfl⟩ := hon
      refine quiet (fun u => rfl) rfl ?_ (fun u hu => setHeld_other _ u hu) (fun u _ => Iff.rfl)
      rw [hrt, hpt]
      refine .u2 o l ?_ b
      simp [Board.step, Board.setHeld, a]
    | u2 o l a b =>
      obtain ⟨rfl, rfl⟩ := hon
      refine quiet (fun u => rfl) rfl ?_ (fun u hu => setHeld_other _ u hu) (fun u _ => Iff.rfl)
      rw [hrt, hpt]
      refine .u3 o l ?_ b
      simp [Board.step, Board.setHeld, a, afterCall]
    | u3 o l a b =>
      obtain ⟨rfl, rfl⟩ := hon
      have e1 : (bd.step (.store t 1 : PEvent T O K A)).pub = o :: bd.pub := by simp [Board.step, a]
      have e2 := hz.add t (.upd o) l hrt hpt
      simp only at e2
      rw [← e1] at e2
      refine ⟨_, _, _, e2, fun u => ?_⟩
      by_cases h : u = t
      · subst h
        simp only [if_true]
        exact .u4 _ _ l a b
      · simp only [if_neg h]
        refine (hsp u).keep rfl Iff.rfl fun hh => ?_
        rw [b] at hh
        exact absurd (Option.some.inj hh).symm h
    | u4 x y _ a b =>
      obtain ⟨rfl, rfl⟩ := hon
      refine quiet (fun u => rfl) rfl ?_ (fun u hu => setHeld_other _ u hu) (fun u _ => Iff.rfl)
      rw [hrt, hpt]
      refine .u5 y _ ?_ b
      simp [Board.step, Board.setHeld, a]
    | u5 y _ a b =>
      obtain ⟨rfl, rfl⟩ := hon
      refine quiet (fun u => rfl) rfl ?_ (fun u hu => setHeld_other _ u hu) (fun u _ => Iff.rfl)
      rw [hrt, hpt]
      refine .u6 _ ?_ b
      simp [Board.step, Board.setHeld, a]
    | u6 _ a b =>
      obtain ⟨rfl, rfl⟩ := hon
      refine quiet (fun u => rfl) rfl ?_ (fun u _ => rfl) (fun u hu => ?_)
      · rw [hrt, hpt]; exact .rest _ a (by simp [Board.step])
      · have : ¬ t = u := fun h => hu h.symm
        simp [Board.step, b, this]
    | g1 k c _ a b =>
      obtain ⟨x, rfl, rfl⟩ := hon
      simp only [Board.Fits, a, List.getElem?_cons_zero] at hfit
      obtain ⟨y, rfl, hy⟩ := hfit
      obtain ⟨z', hz'⟩ := hz.fill t 0 k c hpt y hy
      refine ⟨rest, _, z', hz', fun u => ?_⟩
      by_cases h : u = t
      · subst h
        simp only [if_true]
        rw [hrt]
        exact .g2 c _ a b
      · simp only [if_neg h]
        exact hsp u
    | g2 c _ a b =>
      obtain ⟨rfl, rfl⟩ := hon
      refine quiet (fun u => rfl) rfl ?_ (fun u hu => setHeld_other _ u hu) (fun u _ => Iff.rfl)
      rw [hrt, hpt]
      refine .rest _ ?_ b
      simp [Board.step, Board.setHeld, a]

/-- At any point of a schedule of goroutines with scripts there is an order of the operations that have taken effect so far, of all goroutines: by the events
(loading the variable for a question, storing it for a change) with which they took effect; every answer is right for the changes before it; the variable shows all
the changes; each goroutine's operations are in the order of its script, with the answers it got (at most the last is still to come); and when it has
come to its end they are all there. -/
def AtomicPromise (P : K → List O → A → Prop) (Ob : Heap D → R → List O → Prop) (l0 : List O) (script : T → List (Do O K)) (s : Hub D T O R K A) : Prop :=
  ∃ z : List (Lin T O K A), Atomic P l0 z ∧ Ob s.heap s.cur (chainAfter l0 z) ∧ (z.Pairwise fun a b => a.pos < b.pos) ∧
    (∀ e ∈ z, s.log[e.pos]? = some (match e.op with
      | .upd _ => .store e.who 1
      | .get _ => .load e.who)) ∧
    ∀ t, (∃ rest, opsOf t z ++ rest = script t) ∧
      (linAnswers t z = answersOf t s.log ∨ linAnswers t z = answersOf t s.log ++ [none]) ∧ none ∉ answersOf t s.log ∧
      (s.ended t → opsOf t z = script t ∧ linAnswers t z = answersOf t s.log)

theorem hub_atomic {I : OImpl D O R} {n : Nat} (hI : I.Lawful n) (ops : List (SOp O)) (hl : (Book.init : Book O).LegalAll2 I.cowOk I.inpOk ops)
    (Rd : K → R → Prog D A) (P : K → List O → A → Prop) (Ob : Heap D → R → List O → Prop)
    (hR : ∀ k h r l F, l.length ≤ n → I.Obj h r l F → wp (fun _ => False) (Rd k r) (fun x h' => h' = h ∧ P k l x) h)
    (hO : ∀ h r l F, l.length ≤ n → I.Obj h r l F → Ob h r l) (script : T → List (Do O K))
    (ha : ∀ t, UpdOk I.cowOk (script t)) (sched : List T) (hn : ops.length + sched.length ≤ n) :
    ∃ s, OStore.init.exec I ops = .ok s ∧ ∀ (i : Nat) r v, s.roots[i]? = some r → (Book.init.exec ops).vs[i]? = some v →
      AtomicPromise P Ob v.2 script ((Hub.start s.heap r fun t => scriptA (script t)).exec I Rd sched) := by
  obtain ⟨s, e, hs⟩ := hub_sound hI ops hl Rd P Ob hR hO (fun t => scriptA (script t)) (fun t => scriptA_legal _ _ P _ (ha t) 1) sched hn
  refine ⟨s, e, fun i r v hr hv => ?_⟩
  obtain ⟨hp, _⟩ := hs i r v hr hv
  have hfol := exec_follows (I := I) Rd (act := fun t => scriptA (script t)) sched (s := Hub.start s.heap r fun t => scriptA (script t)) .nil
  obtain ⟨rest, pend, z, hz, hsp⟩ := script_atomic P v.2 script hfol hp.fits
  refine ⟨z, hz.atomic, by rw [← hz.pub]; exact hp.shows, hz.incr, hz.evt, fun t => ⟨⟨rest t, hz.ops t⟩, ?_, hz.known t, fun he => ?_⟩⟩
  · rw [hz.ans t]
    split
    · exact .inr rfl
    · exact .inl (List.append_nil _)
  have ht := hsp t
  rw [show ((((Hub.start s.heap r fun t => scriptA (script t)).exec I Rd sched).th t).phase) = .idle .done from he] at ht
  have hlast : rest t = [] ∧ pend t = none := by
    generalize rest t = rt at ht ⊢
    generalize pend t = pt at ht ⊢
    generalize hd : (Phase.idle Act.done : Phase D O R K A).todo = g at ht
    cases ht with
    | rest =>
      cases rt with
      | nil => exact ⟨rfl, rfl⟩
      | cons d l => cases d <;> cases hd
    | u1 => cases hd
    | u2 => cases hd
    | u3 => cases hd
    | u4 => cases hd
    | u5 => cases hd
    | u6 => cases hd
    | g1 => cases hd
    | g2 => cases hd
  have h1 := hz.ops t
  have h2 := hz.ans t
  simp only [hlast.1, hlast.2, List.append_nil, Option.isSome_none, Bool.false_eq_true, if_false] at h1 h2
  exact ⟨h1, h2⟩

end Verif.Heap
