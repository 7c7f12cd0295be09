import Verif.Heap.Obj

/-!
# Calls that also report something

A Go method like `Delete` gives a tree and a flag.  `OImpl.reporting` is the implementation whose objects carry the flag of the call that made them, so that clients
may look at it; everything proved about implementations in general (histories, shared variables, locks) then also speaks about the flags.
-/

namespace Verif.Heap
open Prog
variable {D O R K A B : Type}

theorem map_map (p : Prog D A) {C E : Type} (g : A → C) (k : C → E) : (((p >>= fun x => pure (g x)) : Prog D C) >>= fun y => pure (k y)) = (p >>= fun x => pure (k (g x)) : Prog D E) := by
  show (p.bind _).bind _ = p.bind _
  induction p with
  | ret x => rfl
  | stop e => rfl
  | read a c ih => exact congrArg (Prog.read a) (funext fun x => ih x)
  | write a c q ih => exact congrArg (Prog.write a c) ih
  | alloc c q ih => exact congrArg (Prog.alloc c) (funext fun x => ih x)

theorem map_id (p : Prog D A) : (p >>= fun x => pure x) = p := by
  show p.bind _ = p
  induction p with
  | ret x => rfl
  | stop e => rfl
  | read a c ih => exact congrArg (Prog.read a) (funext fun x => ih x)
  | write a c q ih => exact congrArg (Prog.write a c) ih
  | alloc c q ih => exact congrArg (Prog.alloc c) (funext fun x => ih x)

/-- Copy-on-write calls with what they report, and which report is right after which chain of calls (newest first). -/
structure Report (D O R B : Type) where
  cow : O → R → Prog D (R × B)
  /-- What is written down for a fresh tree and for an in-place call, which report nothing. -/
  quiet : B
  Says : List O → B → Prop

/-- What has to be proved about reports, for chains of at most `n` calls: the calls are those of `I`, and the reports are right. -/
structure Report.Lawful (P : Report D O R B) (I : OImpl D O R) (n : Nat) : Prop where
  same : ∀ o r, I.cow o r = (P.cow o r >>= fun x => pure x.1)
  right : ∀ (l : List O) (o : O) (r : R) (h : Heap D) F, l.length < n → I.cowOk l o → I.Obj h r l F →
    wp (fun _ => True) (P.cow o r) (fun x _ => P.Says (o :: l) x.2) h
  fresh : P.Says [] P.quiet
  inp : ∀ l o, I.inpOk l o → P.Says (o :: l) P.quiet

/-- The implementation whose objects carry the report of the call that made them. -/
def OImpl.reporting (I : OImpl D O R) (P : Report D O R B) : OImpl D O (R × B) where
  fresh := do let r ← I.fresh; pure (r, P.quiet)
  cow o x := P.cow o x.1
  inp o x := do let r ← I.inp o x.1; pure (r, P.quiet)
  cowOk := I.cowOk
  inpOk := I.inpOk
  Obj h x l F := I.Obj h x.1 l F ∧ P.Says l x.2

theorem wp_weaken {W W' : Addr → Prop} {p : Prog D A} {Q Q' : A → Heap D → Prop} {h : Heap D} (h1 : wp W p Q h) (h2 : wp W' p Q' h) : wp W p (fun x h' => Q x h' ∧ Q' x h') h := by
  induction p generalizing h with
  | ret x => exact ⟨h1, h2⟩
  | stop e => exact h1
  | read a k ih =>
    obtain ⟨c, e1, e2⟩ := h1
    obtain ⟨c', e3, e4⟩ := h2
    obtain rfl : c = c' := by rw [e1] at e3; exact Option.some.inj e3
    exact ⟨c, e1, ih _ e2 e4⟩
  | write a c k ih => exact ⟨h1.1, h1.2.1, ih h1.2.2 h2.2.2⟩
  | alloc c k ih => exact ih _ h1 h2

theorem reporting_lawful {I : OImpl D O R} {P : Report D O R B} {n : Nat} (hI : I.Lawful n) (hP : P.Lawful I n) : (I.reporting P).Lawful n where
  fresh_ok h := by
    show wp _ (I.fresh >>= fun r => pure (r, P.quiet)) _ h
    rw [wp_bind]
    exact wp_conseq (hI.fresh_ok h) fun r h' ⟨F, a, b⟩ => ⟨F, ⟨a, hP.fresh⟩, b⟩
  lt ho hF := hI.lt ho.1 hF
  frame ho h1 h2 := ⟨hI.frame ho.1 h1 h2, ho.2⟩
  cow_ok l o x h F hn hok ho := by
    have h1 := hI.cow_ok l o x.1 h F hn hok ho.1
    rw [hP.same, wp_bind] at h1
    exact wp_conseq (wp_weaken h1 (hP.right l o x.1 h F hn hok ho.1)) fun y h' ⟨⟨F', a, b⟩, c⟩ => ⟨F', ⟨a, c⟩, b⟩
  inp_ok l o x h F hn hok ho := by
    show wp _ (I.inp o x.1 >>= fun r => pure (r, P.quiet)) _ h
    rw [wp_bind]
    exact wp_conseq (hI.inp_ok l o x.1 h F hn hok ho.1) fun r h' ⟨F', a, b⟩ => ⟨F', ⟨a, hP.inp l o hok⟩, b⟩

/-- A question to a tree, or a look at what the call that made it reported. -/
def askReport (Rd : K → R → Prog D A) : Option K → R × B → Prog D (A ⊕ B)
  | some k, x => do let a ← Rd k x.1; pure (.inl a)
  | none, x => pure (.inr x.2)

/-- The answers that are right. -/
def ReportRight (P : Report D O R B) (Right : K → List O → A → Prop) : Option K → List O → A ⊕ B → Prop
  | some k, l, a => ∃ x, a = .inl x ∧ Right k l x
  | none, l, a => ∃ b, a = .inr b ∧ P.Says l b

theorem askReport_ok {I : OImpl D O R} (P : Report D O R B) {n : Nat} (Rd : K → R → Prog D A) (Right : K → List O → A → Prop)
    (hR : ∀ k h r l F, l.length ≤ n → I.Obj h r l F → wp (fun _ => False) (Rd k r) (fun x h' => h' = h ∧ Right k l x) h)
    (k : Option K) (h : Heap D) (x : R × B) (l : List O) (F : Addr → Prop) (hn : l.length ≤ n) (ho : (I.reporting P).Obj h x l F) :
    wp (fun _ => False) (askReport Rd k x) (fun a h' => h' = h ∧ ReportRight P Right k l a) h := by
  cases k with
  | none => exact ⟨rfl, _, rfl, ho.2⟩
  | some k =>
    show wp _ (Rd k x.1 >>= fun a => pure (Sum.inl a : A ⊕ B)) _ h
    rw [wp_bind]
    exact wp_conseq (hR k h x.1 l F hn ho.1) fun a h' ⟨e, r⟩ => ⟨e, a, rfl, r⟩

/-- The same memory and trees without the reports. -/
def OStore.plain (s : OStore D (R × B)) : OStore D R := ⟨s.heap, s.roots.map Prod.fst⟩

theorem step_plain {I : OImpl D O R} {P : Report D O R B} (hs : ∀ o r, I.cow o r = (P.cow o r >>= fun x => pure x.1)) {s s' : OStore D (R × B)} {op : SOp O}
    (h : s.step (I.reporting P) op = .ok s') : s.plain.step I op = .ok s'.plain := by
  cases op with
  | fresh =>
    simp only [OStore.step, OImpl.reporting, Prog.run_bind] at h
    simp only [OStore.step, OStore.plain]
    cases hr : I.fresh.run s.heap with
    | error e => simp only [hr] at h; cases h
    | ok x =>
      simp only [hr] at h
      cases h
      simp
  | cow i o =>
    simp only [OStore.step, OStore.plain, List.getElem?_map] at h ⊢
    cases hi : s.roots[i]? with
    | none => simp only [hi] at h; cases h; rfl
    | some x =>
      simp only [hi, OImpl.reporting] at h
      simp only [Option.map_some, hs, Prog.run_bind]
      cases hr : (P.cow o x.1).run s.heap with
      | error e => simp only [hr] at h; cases h
      | ok y => simp only [hr] at h; cases h; simp [Prog.run, pure]
  | inp i o =>
    simp only [OStore.step, OStore.plain, List.getElem?_map] at h ⊢
    cases hi : s.roots[i]? with
    | none => simp only [hi] at h; cases h; rfl
    | some x =>
      simp only [hi, OImpl.reporting, Prog.run_bind] at h
      simp only [Option.map_some]
      cases hr : (I.inp o x.1).run s.heap with
      | error e => simp only [hr] at h; cases h
      | ok y => simp only [hr] at h; cases h; simp [List.map_set]
  | drop i =>
    cases h
    simp [OStore.step, OStore.plain, map_eraseIdx]

theorem exec_plain {I : OImpl D O R} {P : Report D O R B} (hs : ∀ o r, I.cow o r = (P.cow o r >>= fun x => pure x.1)) {ops : List (SOp O)} {s s' : OStore D (R × B)}
    (h : s.exec (I.reporting P) ops = .ok s') : s.plain.exec I ops = .ok s'.plain := by
  induction ops generalizing s with
  | nil => cases h; rfl
  | cons op ops ih =>
    simp only [OStore.exec] at h ⊢
    cases h1 : s.step (I.reporting P) op with
    | error e => rw [h1] at h; cases h
    | ok s1 =>
      rw [h1] at h
      rw [step_plain hs h1]
      exact ih h

/-- After any history: the reports the client was given are right, and trees and memory are those of the history without looking at reports. -/
theorem history_reports {I : OImpl D O R} {P : Report D O R B} {n : Nat} (hI : I.Lawful n) (hP : P.Lawful I n) (ops : List (SOp O))
    (hl : (Book.init : Book O).LegalAll2 I.cowOk I.inpOk ops) (Ob : Heap D → R → List O → Prop) (hO : ∀ h r l F, l.length ≤ n → I.Obj h r l F → Ob h r l) (hn : ops.length ≤ n) :
    ∃ s, OStore.init.exec (I.reporting P) ops = .ok s ∧ OStore.init.exec I ops = .ok s.plain ∧ s.roots.length = (Book.init.exec ops).vs.length ∧
      ∀ (i : Nat) x v, s.roots[i]? = some x → (Book.init.exec ops).vs[i]? = some v → P.Says v.2 x.2 ∧ Ob s.heap x.1 v.2 := by
  obtain ⟨s, e, _, h1, h2⟩ := obj_history (reporting_lawful hI hP) ops hn hl
  refine ⟨s, e, exec_plain hP.same e, h1, fun i x v hx hv => ?_⟩
  obtain ⟨hl, F, ho, hs⟩ := h2 i x v hx hv
  exact ⟨hs, hO _ _ _ _ hl ho⟩

end Verif.Heap
