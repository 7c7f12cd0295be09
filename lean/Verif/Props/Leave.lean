import Verif.Pipe.BreakFuel
import Verif.Props.Iterate

/-!
# Property theorems for loops over Enumerate that are left early (C89)

As C63, with `break`: a loop may be left after any round.  Its goroutines are left behind; they may still walk the tree up to their next send while the client
goes on.
-/

namespace Verif.Props
open Verif Verif.Heap Verif.Pipe Prog

/-- In every interleaving the script ends without panic or deadlock, never writes a cell that a goroutine (of a loop under way or left) may read at that moment, and
comes out like straight-line code: there is a trail `T` of steps without loops that arises from the script by running every body over the right listing (`L`) of the
tree as it was when its loop began, up to the entry where the loop is left; the reads had the right answers (`P`) for these steps, and through the trees held at the
end one sees (`Ob`) what these steps make.  Of the goroutines the loops started, as many never return as loops were left with entries still to come; all others return. -/
def LeavesRight {D O R K A B E : Type} (P : K → List O → A → Prop) (Ob : Heap D → R → List O → Prop) (L : List O → List E → Prop) (b : Book O) (sc : BScript O K E)
    (m : Main D (Cell D) B (List (Option A) × List R)) (h : Heap D) : Prop :=
  Leaves id m h fun x w h' => ∃ T, sc.Unrolls L b T ∧ w = T.early ∧ b.Answers P T.steps x.1 ∧ x.2.length = (b.after T.steps).vs.length ∧
    ∀ (i : Nat) r v, x.2[i]? = some r → (b.after T.steps).vs[i]? = some v → Ob h' r v.2

section Numtree
open Verif.Num Verif.NumHeap
variable {w : Nat} {V : Type} [LawfulKeySize w] [Inhabited V]

/-- C89 (numtree). -/
theorem C89_numtree {f rounds : Nat} (hf : w + 2 ≤ f) (hr : 2 ^ (w + 1) ≤ rounds) (ops : List (SOp (NumOp w V)))
    (hl : (Book.init : Book (NumOp w V)).LegalAll2 (numImpl f w V).toO.cowOk (numImpl f w V).toO.inpOk ops) (sc : BScript (NumOp w V) (NumQ w) (ND w V))
    (hs : sc.Legal (numImpl f w V).toO.cowOk (numImpl f w V).toO.inpOk (fun l es => NumRight .list l (.list es)) (fun _ => True) [] (Book.init.exec ops) ops.length) :
    ∃ s, OStore.init.exec (numImpl f w V).toO ops = .ok s ∧
      LeavesRight NumRight (fun h r l => Observes f h r (lastWrite (l.map NumOp.abs))) (fun l es => NumRight .list l (.list es)) (Book.init.exec ops) sc
        (sc.main (numImpl f w V).toO (numRead f) (numLoop f rounds w V) ([], s.roots) .ret) s.heap := by
  unfold LeavesRight
  refine obj_bscript (N := fun _ => True) (fun n _ => Impl.toO_lawful (numImpl_lawful (V := V) hf n)) ops trivial hl (numRead f) NumRight (fun h r l => Observes f h r (lastWrite (l.map NumOp.abs)))
    (fun n _ q h r l F _ ho => numRead_ok hf q h r l F ho) ?_ (fun n _ => numLoop_lawful hf hr n) sc hs
  rintro n _ h r l F _ ⟨A, rfl, a1, a2, _, _⟩
  exact observes_of_rep hf a1 a2

end Numtree

section Strtree
open Verif.RB Verif.RBHeap
variable {V : Type} [Inhabited V]

/-- C89 (strtree); `f` bounds the depth of recursion and the rounds of loops. -/
theorem C89_strtree {cmp : Bytes → Bytes → Int} (hc : LawfulCmp cmp) (ops : List (SOp (KOp Bytes V)))
    (hl : (Book.init : Book (KOp Bytes V)).LegalAll2 (fun _ _ => True) kvInp ops) (sc : BScript (KOp Bytes V) KVQ (Bytes × V))
    (hs : sc.Legal (fun _ _ => True) kvInp (fun l es => KVRight cmp .list l (.list es)) (fun _ => True) [] (Book.init.exec ops) ops.length) :
    ∃ f0, ∀ f, f0 ≤ f → ∃ s, OStore.init.exec (rbImpl cmp f).toO ops = .ok s ∧
      LeavesRight (KVRight cmp) (KVObserves cmp f) (fun l es => KVRight cmp .list l (.list es)) (Book.init.exec ops) sc
        (sc.main (rbImpl cmp f).toO (kvRead cmp f) (strLoop f f V) ([], s.roots) .ret) s.heap := by
  unfold LeavesRight
  refine obj_bscript_fuel (I := fun f => (rbImpl cmp f).toO) (L' := fun l es => KVRight cmp .list l (.list es) ∧ es = RB.enumerate ((RB.run cmp l).getD .nil))
    (fun _ => rfl) (fun f => ?_) ops hl (kvRead cmp) (KVRight cmp) (KVObserves cmp) (Lp := fun f => strLoop f f V) (fun _ _ h => h.1)
    (fun l es es' h h' => h.2.trans h'.2.symm) (fun n => ⟨2 * n + 3, fun f hf => ⟨Impl.toO_lawful (rbImpl_lawful (V := V) hc.refl hf), ?_, ?_, ?_⟩⟩) sc hs
  · funext l o
    cases o <;> rfl
  · exact fun q h r l F hn ho => kvRead_ok hc hf q h r l F hn ho
  · rintro h r l F hn ⟨A, rfl, a1, a2, _, _⟩
    exact kvObserves_of_rep hc (by omega) hn a1 a2
  · exact strLoop_lawful hc hf (by omega)

end Strtree

section Iptree
open Verif.IP Verif.IPHeap
variable {V : Type} [Inhabited V]

/-- C89 (iptree). -/
theorem C89_iptree (st : Bool) {f rounds : Nat} (hf : 66 ≤ f) (hr : 2 ^ 131 < rounds) (ops : List (SOp (Op V)))
    (hl : (Book.init : Book (Op V)).LegalAll2 (fun _ _ => True) (ipImpl st f).inpOk ops) (sc : BScript (Op V) NetQ (IPNet × HV V))
    (hs : sc.Legal (fun _ _ => True) (ipImpl st f).inpOk (fun l es => NetRight .list l (.list es)) (fun _ => True) [] (Book.init.exec ops) ops.length) :
    ∃ s, OStore.init.exec (ipImpl st f) ops = .ok s ∧
      LeavesRight NetRight (NetObserves f) (fun l es => NetRight .list l (.list es)) (Book.init.exec ops) sc
        (sc.main (ipImpl st f) (netRead f) (ipLoop f rounds V) ([], s.roots) .ret) s.heap := by
  unfold LeavesRight
  refine obj_bscript (N := fun _ => True) (fun n _ => ipImpl_lawful (V := V) st hf n) ops trivial hl (netRead f) NetRight _
    (fun n _ q h r l F _ ho => netRead_ok hf q h r l F ho) ?_ (fun n _ => ipLoop_lawful st hf hr n) sc hs
  rintro n _ h r l F _ ⟨t, ht, hT⟩
  exact netObserves_of_rep hf hT ht

end Iptree

section UIptree
open Verif.IP Verif.UIPHeap
variable {V : Type} [Inhabited V]

/-- C89 (generated IP trees). -/
theorem C89_uiptree (st : Bool) {f rounds : Nat} (hf : 66 ≤ f) (hr : 2 ^ 131 < rounds) (ops : List (SOp (Op V)))
    (hl : (Book.init : Book (Op V)).LegalAll2 (fun _ _ => True) (uipImpl st f).inpOk ops) (sc : BScript (Op V) NetQ (IPNet × V))
    (hs : sc.Legal (fun _ _ => True) (uipImpl st f).inpOk (fun l es => UNetRight .list l (.list es)) (fun _ => True) [] (Book.init.exec ops) ops.length) :
    ∃ s, OStore.init.exec (uipImpl st f) ops = .ok s ∧
      LeavesRight UNetRight (UShows f) (fun l es => UNetRight .list l (.list es)) (Book.init.exec ops) sc
        (sc.main (uipImpl st f) (unetRead f) (uipLoop f rounds V) ([], s.roots) .ret) s.heap := by
  unfold LeavesRight
  refine obj_bscript (N := fun _ => True) (fun n _ => uipImpl_lawful (V := V) st hf n) ops trivial hl (unetRead f) UNetRight _
    (fun n _ q h r l F _ ho => unetRead_ok hf q h r l F ho) ?_ (fun n _ => uipLoop_lawful st hf hr n) sc hs
  rintro n _ h r l F _ ⟨t, hT, hL, _⟩
  exact uShows_of_rep hf hT hL

end UIptree

section Domaintree
open Verif.DomTree Verif.DomHeap
variable {V : Type}

/-- C89 (domaintree). -/
theorem C89_domaintree (st : Bool) (ops : List (SOp (Op V))) (hl : (Book.init : Book (Op V)).LegalAll2 cowOk (inpOk st) ops) (sc : BScript (Op V) DomQ (Bytes × V))
    (hs : sc.Legal cowOk (inpOk st) (fun l es => DomRight .list l (.list es)) (fun _ => True) [] (Book.init.exec ops) ops.length) :
    ∃ f0, ∀ f, f0 ≤ f → ∃ s, OStore.init.exec (domImpl st f) ops = .ok s ∧
      LeavesRight DomRight (DomObserves f) (fun l es => DomRight .list l (.list es)) (Book.init.exec ops) sc
        (sc.main (domImpl st f) (domRead f) (domLoop f f V) ([], s.roots) .ret) s.heap := by
  unfold LeavesRight
  refine obj_bscript_fuel (I := domImpl st)
    (L' := fun l es => DomRight .list l (.list es) ∧ (DomTree.run (DomHeap.start0 st) l).bind DomTree.Enumerate = some es)
    (fun _ => rfl) (fun _ => rfl) ops hl domRead DomRight DomObserves (Lp := fun f => domLoop f f V) (fun _ _ h => h.1)
    (fun l es es' h h' => ?_) (fun n => ⟨(n + 2) ^ 128 + 2 * n + 131, fun f hf => ⟨domImpl_lawful (V := V) st (by omega), ?_, ?_, ?_⟩⟩) sc hs
  · have := h.2.symm.trans h'.2
    cases this; rfl
  · exact fun q h r l F hn ho => domRead_ok (n0 := n) (by omega) (by omega) q h r l F hn ho
  · exact fun h r l F hn ho => domObserves_of_rep (by omega) (by omega) ho
  · exact domLoop_lawful st (by omega) (by omega) (by omega)

end Domaintree

section Dltree
open Verif.DL Verif.DLHeap
variable {V : Type} [Inhabited V]

/-- C89 (dltree), loops over RawEnumerate. -/
theorem C89_dltree_raw (st : Bool) (ops : List (SOp (DL.Op V))) (hl : (Book.init : Book (DL.Op V)).LegalAll2 dlCow (dlInp st) ops)
    (sc : BScript (DL.Op V) LabelQ (Bytes × V))
    (hs : sc.Legal dlCow (dlInp st) (fun l es => LabelRight .list l (.list es)) (fun _ => True) [] (Book.init.exec ops) ops.length) :
    ∃ f0, ∀ f, f0 ≤ f → ∃ s, OStore.init.exec (dlImpl st f) ops = .ok s ∧
      LeavesRight LabelRight (DLShows f) (fun l es => LabelRight .list l (.list es)) (Book.init.exec ops) sc
        (sc.main (dlImpl st f) (labelRead f) (dlRawLoop f f V) ([], s.roots) .ret) s.heap := by
  unfold LeavesRight
  refine obj_bscript_fuel (I := dlImpl st) (L' := fun l es => LabelRight .list l (.list es) ∧ (DL.run (DLHeap.start0 st) l).map RawEnumerate = some es)
    (fun _ => rfl) (fun _ => rfl) ops hl labelRead LabelRight DLShows (Lp := fun f => dlRawLoop f f V) (fun _ _ h => h.1)
    (fun l es es' h h' => ?_) (fun n => ⟨2 * n + 3, fun f hf => ⟨dlImpl_lawful (V := V) st hf, ?_, ?_, ?_⟩⟩) sc hs
  · have := h.2.symm.trans h'.2
    cases this; rfl
  · exact fun q h r l F hn ho => labelRead_ok hf q h r l F hn ho
  · exact fun h r l F hn ho => dlShows_of_obj (by omega) ho
  · exact dlRawLoop_lawful st hf (by omega)

/-- C89 (dltree), loops over Enumerate, which needs stored labels of at most 63 bytes. -/
theorem C89_dltree (st : Bool) (ops : List (SOp (DL.Op V)))
    (hl : (Book.init : Book (DL.Op V)).LegalAll2 (fun l o => dlCow l o ∧ Short o) (fun l o => dlInp st l o ∧ Short o) ops)
    (sc : BScript (DL.Op V) LabelQ (Bytes × V))
    (hs : sc.Legal (fun l o => dlCow l o ∧ Short o) (fun l o => dlInp st l o ∧ Short o) TextRight (fun _ => True) [] (Book.init.exec ops) ops.length) :
    ∃ f0, ∀ f, f0 ≤ f → ∃ s, OStore.init.exec (dlImpl st f) ops = .ok s ∧
      LeavesRight LabelRight (DLShows f) TextRight (Book.init.exec ops) sc
        (sc.main (dlImpl st f) (labelRead f) (dlLoop f f V) ([], s.roots) .ret) s.heap := by
  have e : ∀ f ops s, OStore.exec (restrict (dlImpl (V := V) st f) Short) s ops = OStore.exec (dlImpl st f) s ops := by
    intro f ops
    induction ops with
    | nil => exact fun _ => rfl
    | cons op ops ih =>
      intro s
      have e1 : s.step (restrict (dlImpl (V := V) st f) Short) op = s.step (dlImpl st f) op := by cases op <;> rfl
      simp only [OStore.exec, e1, ih]
  have e2 : ∀ f (sc : BScript (DL.Op V) LabelQ (Bytes × V)) x (k : List (Option (Reply V (Bytes × V))) × List Ptr → Main (LD V) (Cell (LD V)) (Bytes × V) (List (Option (Reply V (Bytes × V))) × List Ptr)),
      sc.main (restrict (dlImpl (V := V) st f) Short) (labelRead f) (dlLoop f f V) x k = sc.main (dlImpl st f) (labelRead f) (dlLoop f f V) x k := by
    intro f sc
    induction sc with
    | done => exact fun _ _ => rfl
    | call op t ih =>
      intro x k
      have : stepP (restrict (dlImpl (V := V) st f) Short) x.2 op = stepP (dlImpl st f) x.2 op := by cases op <;> rfl
      simp only [BScript.main, ih, this]
    | read i q t ih => intro x k; simp only [BScript.main, ih]
    | each i body brk t ihb iht => intro x k; simp only [BScript.main, ihb, iht]
  have main := obj_bscript_fuel (I := fun f => restrict (dlImpl (V := V) st f) Short)
    (L' := fun l es => TextRight l es ∧ (DL.run (DLHeap.start0 st) l).bind DL.Enumerate = some es)
    (fun _ => rfl) (fun _ => rfl) ops hl labelRead LabelRight DLShows (Lp := fun f => dlLoop f f V) (fun _ _ h => h.1)
    (fun l es es' h h' => by have := h.2.symm.trans h'.2; cases this; rfl)
    (fun n => ⟨2 * n + 3, fun f hf => ⟨restrict_lawful (dlImpl_lawful (V := V) st hf), fun q h r l F hn ho => labelRead_ok hf q h r l F hn ho.1,
      fun h r l F hn ho => dlShows_of_obj (by omega) ho.1, dlLoop_lawful st hf (by omega)⟩⟩) sc hs
  unfold LeavesRight
  simp only [e, e2] at main
  exact main

end Dltree

/-! ## Concrete cases -/

/-- The answers of the reads of a script after a history, in the schedule that prefers the caller or the one that prefers the
goroutines, and how many goroutines are left then. -/
def leaveAnswers {D O R K A B E : Type} (I : OImpl D O R) (Rd : K → R → Prog D A) (Lp : Loop D R B E) (ops : List (SOp O)) (sc : BScript O K E) (eager : Bool) (n : Nat) :
    Option (List (Option A) × Nat) :=
  match OStore.init.exec I ops with
  | .ok s =>
    let e := drive id eager n ⟨s.heap, sc.main I Rd Lp ([], s.roots) .ret, []⟩
    e.answer.map fun x => (x.1, (e.kids.filter Proc.live).length)
  | .error _ => none

/-- The caller is about to write a cell that a goroutine is about to read. -/
def racing {D X B α : Type} (s : Sys D X B α) : Bool := match s.main with
  | .write a _ _ => s.kids.any fun | .mk (.read a' _) _ => a == a' | _ => false
  | _ => false

theorem racing_runs {D X B α : Type} {φ : Cell D → X} {eager : Bool} {s : Sys D X B α} (n : Nat) (h : racing (drive φ eager n s) = true) :
    ∃ m t a c k, Spec.Runs (Step φ) m s t ∧ t.main = .write a c k ∧ ∃ p ∈ t.kids, p.AtRead a := by
  obtain ⟨m, hm⟩ := drive_runs (φ := φ) (eager := eager) n (.refl s)
  generalize drive φ eager n s = t at h hm
  refine ⟨m, t, ?_⟩
  unfold racing at h
  split at h
  · rename_i a c k e
    rw [List.any_eq_true] at h
    obtain ⟨p, hp, h⟩ := h
    refine ⟨a, c, k, hm, e, p, hp, ?_⟩
    split at h
    · have := LawfulBEq.eq_of_beq h
      subst this
      exact .here
    · cases h
  · cases h

section
open Verif.Num Verif.NumHeap

/-- Read the first entry of tree 2 and leave the loop; then start tree 3 and insert in place there, and derive tree 4 from tree 2 by deletion. -/
def numFirst : BScript (NumOp 32 Nat) (NumQ 32) (ND 32 Nat) :=
  .each 2 (fun e => .read 2 (.exact e.key e.bits) .done) (fun _ => true)
    (.call .fresh (.call (.inp 3 (.insert 0x0B000000#32 8 7)) (.read 3 .list (.call (.cow 2 (.delete 0x0A000000#32 8)) (.read 4 .list (.read 2 .list .done))))))

example : numFirst.Legal (numImpl 34 32 Nat).toO.cowOk (numImpl 34 32 Nat).toO.inpOk (fun l es => NumRight .list l (.list es)) (fun _ => True) []
    (Book.init.exec numTwo) numTwo.length := by
  have rest : ∀ (busy : List Nat) (m : Nat), (∀ o ∈ busy, o < (Book.init.exec numTwo).next) →
      (BScript.call .fresh (.call (.inp 3 (.insert 0x0B000000#32 8 7)) (.read 3 .list (.call (.cow 2 (.delete 0x0A000000#32 8)) (.read 4 .list (.read 2 .list .done))))) :
        BScript (NumOp 32 Nat) (NumQ 32) (ND 32 Nat)).Legal (numImpl 34 32 Nat).toO.cowOk (numImpl 34 32 Nat).toO.inpOk (fun l es => NumRight .list l (.list es)) (fun _ => True)
        busy (Book.init.exec numTwo) m := by
    intro busy m hb
    refine ⟨trivial, trivial, trivial, trivial, ?_, ?_, trivial, ?_, trivial, trivial⟩
    · intro v hv
      cases hv
      refine ⟨trivial, fun j u hj hu => ?_⟩
      match j with
      | 0 => cases hu; decide
      | 1 => cases hu; decide
      | 2 => cases hu; decide
      | 3 => exact absurd rfl hj
      | j + 4 => cases hu
    · intro v hv
      cases hv
      exact fun h => absurd (hb _ h) (by decide)
    · intro v _
      trivial
  refine fun es _ => ⟨?_, fun T r hT => ?_⟩
  · cases es with
    | nil => trivial
    | cons e es => exact ⟨trivial, fun h => by cases h⟩
  · have hs : (Book.init.exec numTwo).after T.steps = Book.init.exec numTwo ∧ T.left = [] := by
      cases es with
      | nil => obtain ⟨rfl, _⟩ := hT; exact ⟨rfl, rfl⟩
      | cons e es =>
        obtain ⟨T1, ⟨U, rfl, rfl⟩, h⟩ := hT
        simp only [if_true] at h
        obtain ⟨rfl, _⟩ := h
        exact ⟨rfl, rfl⟩
    rw [hs.1, hs.2]
    refine rest _ _ fun o ho => ?_
    cases r with
    | none => simp [leaving, Trail.nil] at ho
    | some r =>
      simp only [leaving, List.append_nil, List.mem_singleton] at ho
      subst ho; decide

/-- The answers in short. -/
def numBrief (p : List (Option (Reply Nat (ND 32 Nat))) × Nat) : List (List Nat) × Nat :=
  (p.1.map fun | some (.val x) => x.toList | some (.list l) => l.map fun n => n.value | none => [], p.2)

/-- One entry is read, the later calls are right, and one goroutine stays; the same in both schedules. -/
example : ∀ eager, (leaveAnswers (numImpl 34 32 Nat).toO (numRead 34) (numLoop 34 (2 ^ 33) 32 Nat) numTwo numFirst eager 1000).map numBrief =
    some ([[1], [7], [], [1, 2]], 1) := by decide +kernel

/-- Leave the loop over tree 0 in the first round, then insert in place into tree 0. -/
def numLate : BScript (NumOp 32 Nat) (NumQ 32) (ND 32 Nat) :=
  .each 0 (fun _ => .done) (fun _ => true) (.call (.inp 0 (.insert 0x0A010000#32 16 2)) .done)

/-- C89, why the restriction: an insertion in place into a tree whose loop was left writes a node that the goroutine left behind may read at that moment. -/
theorem C89_inplace_race : ∃ s, OStore.init.exec (numImpl 34 32 Nat).toO [.fresh, .inp 0 (.insert 0x0A000000#32 8 1)] = .ok s ∧
    ∃ n t a c k, Spec.Runs (Step id) n ⟨s.heap, numLate.main (numImpl 34 32 Nat).toO (numRead 34) (numLoop 34 (2 ^ 33) 32 Nat) ([], s.roots) .ret, []⟩ t ∧
      t.main = .write a c k ∧ ∃ p ∈ t.kids, p.AtRead a := by
  refine ⟨_, rfl, racing_runs (eager := true) 7 ?_⟩
  decide +kernel

end

section
open Verif.RB Verif.RBHeap

/-- Derive a tree from tree 2 in the first round, leave, and go on deriving from tree 2. -/
def kvFirst : BScript (KOp Bytes Nat) KVQ (Bytes × Nat) :=
  .each 2 (fun e => .call (.cow 2 (.insert (e.1 ++ [7]) (e.2 + 10))) .done) (fun _ => true) (.read 3 .list (.call (.cow 2 (.insert [9] 9)) (.read 4 .list (.read 2 .list .done))))

example : kvFirst.Legal (fun _ _ => True) kvInp (fun l es => KVRight compareBytes .list l (.list es)) (fun _ => True) [] (Book.init.exec kvShared) kvShared.length :=
  BScript.Derives.legal (good := fun _ => True) (fun _ _ _ => trivial) (fun _ => trivial) kvFirst ⟨fun _ => ⟨trivial, trivial⟩, trivial, trivial⟩ _ _ _

example : ∀ eager, leaveAnswers (rbImpl compareBytes 20).toO (kvRead compareBytes 20) (strLoop 20 20 Nat) kvShared kvFirst eager 1000 =
    some ([some (.list [([1], 1), ([1, 7], 11), ([2], 2)]), some (.list [([1], 1), ([2], 2), ([9], 9)]), some (.list [([1], 1), ([2], 2)])], 1) := by decide +kernel

/-- Leaving the loop at the last entry: the goroutine returns by itself. -/
example : ∀ eager, leaveAnswers (rbImpl compareBytes 20).toO (kvRead compareBytes 20) (strLoop 20 20 Nat) kvShared
    (.each 2 (fun _ => .done) (fun e => e.1 = [2]) (.read 2 .list .done)) eager 1000 = some ([some (.list [([1], 1), ([2], 2)])], 0) := by decide +kernel

end

section
open Verif.IP Verif.IPHeap

/-- Look at the first entry of tree 2 only, and delete it from tree 2. -/
def netFirst {E : Type} : BScript (Op Nat) NetQ (IPNet × E) :=
  .each 2 (fun e => .call (.cow 2 (.deleteByNet (some e.1))) (.read 3 (.get (some e.1)) (.read 2 (.get (some e.1)) .done))) (fun _ => true) (.each 3 (fun e => .read 2 (.get (some e.1)) .done) (fun _ => false) .done)

example : netFirst.Legal (fun _ _ => True) (ipImpl (V := Nat) true 66).inpOk (fun l es => NetRight .list l (.list es)) (fun _ => True) [] (Book.init.exec netTwo) netTwo.length :=
  BScript.Derives.legal (good := fun _ => True) (fun _ _ _ => trivial) (fun _ => trivial) netFirst ⟨fun _ => ⟨trivial, trivial⟩, fun _ => trivial, trivial⟩ _ _ _

example : ∀ eager, leaveAnswers (ipImpl true 66) (netRead 66) (ipLoop 66 (2 ^ 132) Nat) netTwo netFirst eager 3000 =
    some ([some (.val none), some (.val (some (.user 2))), some (.val (some (.user 1)))], 1) := by decide +kernel

example : netFirst.Legal (fun _ _ => True) (UIPHeap.uipImpl (V := Nat) true 66).inpOk (fun l es => UNetRight .list l (.list es)) (fun _ => True) [] (Book.init.exec netTwo) netTwo.length :=
  BScript.Derives.legal (good := fun _ => True) (fun _ _ _ => trivial) (fun _ => trivial) netFirst ⟨fun _ => ⟨trivial, trivial⟩, fun _ => trivial, trivial⟩ _ _ _

example : ∀ eager, leaveAnswers (UIPHeap.uipImpl true 66) (unetRead 66) (uipLoop 66 (2 ^ 132) Nat) netTwo netFirst eager 3000 =
    some ([some (.val none), some (.val (some 2)), some (.val (some 1))], 1) := by decide +kernel

end

section
open Verif.Domain Verif.DomTree Verif.DomHeap

/-- Insert a further domain in the first round and leave. -/
def domFirst : BScript (Op Nat) DomQ (Bytes × Nat) :=
  .each 2 (fun e => .call (.cow 2 (.insert (nm "org") e.2)) .done) (fun _ => true) (.read 3 .list (.read 2 .list .done))

example : domFirst.Legal cowOk (inpOk true) (fun l es => DomRight .list l (.list es)) (fun _ => True) [] (Book.init.exec domTwo) domTwo.length :=
  BScript.Derives.legal (good := fun o => Named o ∧ ∃ d v, o = .insert d v) (fun l o h => by obtain ⟨h, d, v, rfl⟩ := h; exact ⟨h, trivial⟩) (fun _ => trivial) domFirst
    ⟨fun e => ⟨⟨⟨txt "org", show MakeNameFromString (txt "org") = .ok (nm "org") by decide +kernel⟩, _, _, rfl⟩, trivial⟩, trivial⟩ _ _ _

example : ∀ eager, leaveAnswers (domImpl true 128) (domRead 128) (domLoop 128 128 Nat) domTwo domFirst eager 3000 =
    some ([some (.list [(txt "b.com", 1), (txt "a.b.com", 2), (txt "org", 1)]), some (.list [(txt "b.com", 1), (txt "a.b.com", 2)])], 1) := by decide +kernel

end

section
open Verif.DL Verif.DLHeap

/-- Delete the first entry of tree 2 and leave. -/
def labelFirst : BScript (DL.Op Nat) LabelQ (Bytes × Nat) :=
  .each 2 (fun e => .call (.cow 2 (.rawDelete e.1)) .done) (fun _ => true) (.read 3 .list (.read 2 .list .done))

example : labelFirst.Legal dlCow (dlInp true) (fun l es => LabelRight .list l (.list es)) (fun _ => True) [] (Book.init.exec labelTwo) labelTwo.length :=
  BScript.Derives.legal (good := fun o => ∃ l, o = .rawDelete l) (fun l o h => by obtain ⟨k, rfl⟩ := h; exact ⟨_, .rawDelete⟩) (fun _ => trivial) labelFirst
    ⟨fun e => ⟨⟨_, rfl⟩, trivial⟩, trivial⟩ _ _ _

example : labelFirst.Legal (fun l o => dlCow l o ∧ Short o) (fun l o => dlInp true l o ∧ Short o) TextRight (fun _ => True) [] (Book.init.exec labelTwo) labelTwo.length :=
  BScript.Derives.legal (good := fun o => ∃ l, o = .rawDelete l) (fun l o h => by obtain ⟨k, rfl⟩ := h; exact ⟨⟨_, .rawDelete⟩, fun l v h => by cases h⟩) (fun _ => trivial) labelFirst
    ⟨fun e => ⟨⟨_, rfl⟩, trivial⟩, trivial⟩ _ _ _

example : ∀ eager, leaveAnswers (dlImpl true 20) (labelRead 20) (dlRawLoop 20 20 Nat) labelTwo labelFirst eager 3000 =
    some ([some (.list [([65, 66], 2)]), some (.list [([65], 1), ([65, 66], 2)])], 1) := by decide +kernel

end

end Verif.Props
