import Verif.Pipe.Fuel
import Verif.Pipe.IPLoop
import Verif.Pipe.UIPLoop
import Verif.Pipe.DomLoop
import Verif.Pipe.Exec

/-!
# Property theorems for loops over Enumerate (C63)

After a history of the client (as in C05, C13, C33, C45) the client runs a script: calls, reads, and loops
`for e := range trees[i].Enumerate() { body }`, whose bodies are scripts again (with loops over the same or other trees, and calls that
derive trees from the tree being listed).  Each loop starts goroutines that walk the nodes in memory while the body runs; the
goroutines of iptree and domaintree start further ones.  Steps are single memory accesses and channel operations and interleave in any
way.
-/

namespace Verif.Props
open Verif Verif.Heap Verif.Pipe Prog

/-- In every interleaving the script ends without panic or deadlock and with no goroutine left, and comes out like straight-line code: there
is a list of steps `l` without loops that arises from the script by running every body over the right listing (`L`) of the tree as it
was when its loop began; the reads had the right answers (`P`) for these steps, and through the trees held at the end one sees (`Ob`)
what these steps make. -/
def Iterates {D O R K A B E : Type} (P : K → List O → A → Prop) (Ob : Heap D → R → List O → Prop) (L : List O → List E → Prop) (b : Book O) (sc : Script O K E)
    (m : Main D (Cell D) B (List (Option A) × List R)) (h : Heap D) : Prop :=
  Ends id m h fun x h' => ∃ l, sc.Unrolls L b l ∧ b.Answers P l x.1 ∧ x.2.length = (b.after l).vs.length ∧
    ∀ (i : Nat) r v, x.2[i]? = some r → (b.after l).vs[i]? = some v → Ob h' r v.2

section Numtree
open Verif.Num Verif.NumHeap
variable {w : Nat} {V : Type} [LawfulKeySize w] [Inhabited V]

/-- C63 (numtree). -/
theorem C63_numtree {f rounds : Nat} (hf : w + 2 ≤ f) (hr : 2 ^ (w + 1) ≤ rounds) (ops : List (SOp (NumOp w V)))
    (hl : (Book.init : Book (NumOp w V)).LegalAll2 (numImpl f w V).toO.cowOk (numImpl f w V).toO.inpOk ops) (sc : Script (NumOp w V) (NumQ w) (ND w V))
    (hs : sc.Legal (numImpl f w V).toO.cowOk (numImpl f w V).toO.inpOk (fun l es => NumRight .list l (.list es)) (fun _ => True) [] (Book.init.exec ops) ops.length) :
    ∃ s, OStore.init.exec (numImpl f w V).toO ops = .ok s ∧
      Iterates NumRight (fun h r l => Observes f h r (lastWrite (l.map NumOp.abs))) (fun l es => NumRight .list l (.list es)) (Book.init.exec ops) sc
        (sc.main (numImpl f w V).toO (numRead f) (numLoop f rounds w V) ([], s.roots) .ret) s.heap := by
  unfold Iterates
  refine obj_script (N := fun _ => True) (fun n _ => Impl.toO_lawful (numImpl_lawful (V := V) hf n)) ops trivial hl (numRead f) NumRight (fun h r l => Observes f h r (lastWrite (l.map NumOp.abs)))
    (fun n _ q h r l F _ ho => numRead_ok hf q h r l F ho) ?_ (fun n _ => numLoop_lawful hf hr n) sc hs
  rintro n _ h r l F _ ⟨A, rfl, a1, a2, _, _⟩
  exact observes_of_rep hf a1 a2

end Numtree

section Strtree
open Verif.RB Verif.RBHeap
variable {V : Type} [Inhabited V]

/-- The in-place calls covered: insertions. -/
def kvInp (_ : List (KOp Bytes V)) : KOp Bytes V → Prop
  | .insert _ _ => True
  | .delete _ => False

/-- C63 (strtree); `f` bounds the depth of recursion and the rounds of loops. -/
theorem C63_strtree {cmp : Bytes → Bytes → Int} (hc : LawfulCmp cmp) (ops : List (SOp (KOp Bytes V)))
    (hl : (Book.init : Book (KOp Bytes V)).LegalAll2 (fun _ _ => True) kvInp ops) (sc : Script (KOp Bytes V) KVQ (Bytes × V))
    (hs : sc.Legal (fun _ _ => True) kvInp (fun l es => KVRight cmp .list l (.list es)) (fun _ => True) [] (Book.init.exec ops) ops.length) :
    ∃ f0, ∀ f, f0 ≤ f → ∃ s, OStore.init.exec (rbImpl cmp f).toO ops = .ok s ∧
      Iterates (KVRight cmp) (KVObserves cmp f) (fun l es => KVRight cmp .list l (.list es)) (Book.init.exec ops) sc
        (sc.main (rbImpl cmp f).toO (kvRead cmp f) (strLoop f f V) ([], s.roots) .ret) s.heap := by
  unfold Iterates
  refine obj_script_fuel (I := fun f => (rbImpl cmp f).toO) (L' := fun l es => KVRight cmp .list l (.list es) ∧ es = RB.enumerate ((RB.run cmp l).getD .nil))
    (fun _ => rfl) (fun f => ?_) ops hl (kvRead cmp) (KVRight cmp) (KVObserves cmp) (Lp := fun f => strLoop f f V) (fun _ _ h => h.1)
    (fun l es es' h h' => h.2.trans h'.2.symm) (fun n => ⟨2 * n + 3, fun f hf => ⟨Impl.toO_lawful (rbImpl_lawful (V := V) hc.refl hf), ?_, ?_, ?_⟩⟩) sc hs
  · funext l o
    cases o <;> rfl
  · exact fun q h r l F hn ho => kvRead_ok hc hf q h r l F hn ho
  · rintro h r l F hn ⟨A, rfl, a1, a2, _, _⟩
    exact kvObserves_of_rep hc (by omega) hn a1 a2
  · exact strLoop_lawful hc hf (by omega)

end Strtree

section Iptree
open Verif.IP Verif.IPHeap
variable {V : Type} [Inhabited V]

/-- C63 (iptree). -/
theorem C63_iptree (st : Bool) {f rounds : Nat} (hf : 66 ≤ f) (hr : 2 ^ 131 < rounds) (ops : List (SOp (Op V)))
    (hl : (Book.init : Book (Op V)).LegalAll2 (fun _ _ => True) (ipImpl st f).inpOk ops) (sc : Script (Op V) NetQ (IPNet × HV V))
    (hs : sc.Legal (fun _ _ => True) (ipImpl st f).inpOk (fun l es => NetRight .list l (.list es)) (fun _ => True) [] (Book.init.exec ops) ops.length) :
    ∃ s, OStore.init.exec (ipImpl st f) ops = .ok s ∧
      Iterates NetRight (NetObserves f) (fun l es => NetRight .list l (.list es)) (Book.init.exec ops) sc
        (sc.main (ipImpl st f) (netRead f) (ipLoop f rounds V) ([], s.roots) .ret) s.heap := by
  unfold Iterates
  refine obj_script (N := fun _ => True) (fun n _ => ipImpl_lawful (V := V) st hf n) ops trivial hl (netRead f) NetRight _
    (fun n _ q h r l F _ ho => netRead_ok hf q h r l F ho) ?_ (fun n _ => ipLoop_lawful st hf hr n) sc hs
  rintro n _ h r l F _ ⟨t, ht, hT⟩
  exact netObserves_of_rep hf hT ht

end Iptree

section UIptree
open Verif.IP Verif.UIPHeap
variable {V : Type} [Inhabited V]

/-- C63 (generated IP trees). -/
theorem C63_uiptree (st : Bool) {f rounds : Nat} (hf : 66 ≤ f) (hr : 2 ^ 131 < rounds) (ops : List (SOp (Op V)))
    (hl : (Book.init : Book (Op V)).LegalAll2 (fun _ _ => True) (uipImpl st f).inpOk ops) (sc : Script (Op V) NetQ (IPNet × V))
    (hs : sc.Legal (fun _ _ => True) (uipImpl st f).inpOk (fun l es => UNetRight .list l (.list es)) (fun _ => True) [] (Book.init.exec ops) ops.length) :
    ∃ s, OStore.init.exec (uipImpl st f) ops = .ok s ∧
      Iterates UNetRight (UShows f) (fun l es => UNetRight .list l (.list es)) (Book.init.exec ops) sc
        (sc.main (uipImpl st f) (unetRead f) (uipLoop f rounds V) ([], s.roots) .ret) s.heap := by
  unfold Iterates
  refine obj_script (N := fun _ => True) (fun n _ => uipImpl_lawful (V := V) st hf n) ops trivial hl (unetRead f) UNetRight _
    (fun n _ q h r l F _ ho => unetRead_ok hf q h r l F ho) ?_ (fun n _ => uipLoop_lawful st hf hr n) sc hs
  rintro n _ h r l F _ ⟨t, hT, hL, _⟩
  exact uShows_of_rep hf hT hL

end UIptree

section Domaintree
open Verif.DomTree Verif.DomHeap
variable {V : Type}

/-- C63 (domaintree). -/
theorem C63_domaintree (st : Bool) (ops : List (SOp (Op V))) (hl : (Book.init : Book (Op V)).LegalAll2 cowOk (inpOk st) ops) (sc : Script (Op V) DomQ (Bytes × V))
    (hs : sc.Legal cowOk (inpOk st) (fun l es => DomRight .list l (.list es)) (fun _ => True) [] (Book.init.exec ops) ops.length) :
    ∃ f0, ∀ f, f0 ≤ f → ∃ s, OStore.init.exec (domImpl st f) ops = .ok s ∧
      Iterates DomRight (DomObserves f) (fun l es => DomRight .list l (.list es)) (Book.init.exec ops) sc
        (sc.main (domImpl st f) (domRead f) (domLoop f f V) ([], s.roots) .ret) s.heap := by
  unfold Iterates
  refine obj_script_fuel (I := domImpl st)
    (L' := fun l es => DomRight .list l (.list es) ∧ (DomTree.run (DomHeap.start0 st) l).bind DomTree.Enumerate = some es)
    (fun _ => rfl) (fun _ => rfl) ops hl domRead DomRight DomObserves (Lp := fun f => domLoop f f V) (fun _ _ h => h.1)
    (fun l es es' h h' => ?_) (fun n => ⟨(n + 2) ^ 128 + 2 * n + 131, fun f hf => ⟨domImpl_lawful (V := V) st (by omega), ?_, ?_, ?_⟩⟩) sc hs
  · have := h.2.symm.trans h'.2
    cases this; rfl
  · exact fun q h r l F hn ho => domRead_ok (n0 := n) (by omega) (by omega) q h r l F hn ho
  · exact fun h r l F hn ho => domObserves_of_rep (by omega) (by omega) ho
  · exact domLoop_lawful st (by omega) (by omega) (by omega)

end Domaintree

section Dltree
open Verif.DL Verif.DLHeap
variable {V : Type} [Inhabited V]

/-- C63 (dltree), loops over RawEnumerate. -/
theorem C63_dltree_raw (st : Bool) (ops : List (SOp (DL.Op V))) (hl : (Book.init : Book (DL.Op V)).LegalAll2 dlCow (dlInp st) ops)
    (sc : Script (DL.Op V) LabelQ (Bytes × V))
    (hs : sc.Legal dlCow (dlInp st) (fun l es => LabelRight .list l (.list es)) (fun _ => True) [] (Book.init.exec ops) ops.length) :
    ∃ f0, ∀ f, f0 ≤ f → ∃ s, OStore.init.exec (dlImpl st f) ops = .ok s ∧
      Iterates LabelRight (DLShows f) (fun l es => LabelRight .list l (.list es)) (Book.init.exec ops) sc
        (sc.main (dlImpl st f) (labelRead f) (dlRawLoop f f V) ([], s.roots) .ret) s.heap := by
  unfold Iterates
  refine obj_script_fuel (I := dlImpl st) (L' := fun l es => LabelRight .list l (.list es) ∧ (DL.run (DLHeap.start0 st) l).map RawEnumerate = some es)
    (fun _ => rfl) (fun _ => rfl) ops hl labelRead LabelRight DLShows (Lp := fun f => dlRawLoop f f V) (fun _ _ h => h.1)
    (fun l es es' h h' => ?_) (fun n => ⟨2 * n + 3, fun f hf => ⟨dlImpl_lawful (V := V) st hf, ?_, ?_, ?_⟩⟩) sc hs
  · have := h.2.symm.trans h'.2
    cases this; rfl
  · exact fun q h r l F hn ho => labelRead_ok hf q h r l F hn ho
  · exact fun h r l F hn ho => dlShows_of_obj (by omega) ho
  · exact dlRawLoop_lawful st hf (by omega)

/-- C63 (dltree), loops over Enumerate, which needs stored labels of at most 63 bytes. -/
theorem C63_dltree (st : Bool) (ops : List (SOp (DL.Op V)))
    (hl : (Book.init : Book (DL.Op V)).LegalAll2 (fun l o => dlCow l o ∧ Short o) (fun l o => dlInp st l o ∧ Short o) ops)
    (sc : Script (DL.Op V) LabelQ (Bytes × V))
    (hs : sc.Legal (fun l o => dlCow l o ∧ Short o) (fun l o => dlInp st l o ∧ Short o) TextRight (fun _ => True) [] (Book.init.exec ops) ops.length) :
    ∃ f0, ∀ f, f0 ≤ f → ∃ s, OStore.init.exec (dlImpl st f) ops = .ok s ∧
      Iterates LabelRight (DLShows f) TextRight (Book.init.exec ops) sc
        (sc.main (dlImpl st f) (labelRead f) (dlLoop f f V) ([], s.roots) .ret) s.heap := by
  have e : ∀ f ops s, OStore.exec (restrict (dlImpl (V := V) st f) Short) s ops = OStore.exec (dlImpl st f) s ops := by
    intro f ops
    induction ops with
    | nil => exact fun _ => rfl
    | cons op ops ih =>
      intro s
      have e1 : s.step (restrict (dlImpl (V := V) st f) Short) op = s.step (dlImpl st f) op := by cases op <;> rfl
      simp only [OStore.exec, e1, ih]
  have e2 : ∀ f (sc : Script (DL.Op V) LabelQ (Bytes × V)) x (k : List (Option (Reply V (Bytes × V))) × List Ptr → Main (LD V) (Cell (LD V)) (Bytes × V) (List (Option (Reply V (Bytes × V))) × List Ptr)),
      sc.main (restrict (dlImpl (V := V) st f) Short) (labelRead f) (dlLoop f f V) x k = sc.main (dlImpl st f) (labelRead f) (dlLoop f f V) x k := by
    intro f sc
    induction sc with
    | done => exact fun _ _ => rfl
    | call op t ih =>
      intro x k
      have : stepP (restrict (dlImpl (V := V) st f) Short) x.2 op = stepP (dlImpl st f) x.2 op := by cases op <;> rfl
      simp only [Script.main, ih, this]
    | read i q t ih => intro x k; simp only [Script.main, ih]
    | each i body t ihb iht => intro x k; simp only [Script.main, ihb, iht]
  have main := obj_script_fuel (I := fun f => restrict (dlImpl (V := V) st f) Short)
    (L' := fun l es => TextRight l es ∧ (DL.run (DLHeap.start0 st) l).bind DL.Enumerate = some es)
    (fun _ => rfl) (fun _ => rfl) ops hl labelRead LabelRight DLShows (Lp := fun f => dlLoop f f V) (fun _ _ h => h.1)
    (fun l es es' h h' => by have := h.2.symm.trans h'.2; cases this; rfl)
    (fun n => ⟨2 * n + 3, fun f hf => ⟨restrict_lawful (dlImpl_lawful (V := V) st hf), fun q h r l F hn ho => labelRead_ok hf q h r l F hn ho.1,
      fun h r l F hn ho => dlShows_of_obj (by omega) ho.1, dlLoop_lawful st hf (by omega)⟩⟩) sc hs
  unfold Iterates
  simp only [e, e2] at main
  exact main

end Dltree

/-! ## Concrete cases -/

/-- The answers of the reads of a script after a history, in the schedule that prefers the caller or the one that prefers the
goroutines. -/
def scriptAnswers {D O R K A B E : Type} (I : OImpl D O R) (Rd : K → R → Prog D A) (Lp : Loop D R B E) (ops : List (SOp O)) (sc : Script O K E) (eager : Bool) (n : Nat) :
    Option (List (Option A)) :=
  match OStore.init.exec I ops with
  | .ok s => (outcome id eager n (sc.main I Rd Lp ([], s.roots) .ret) s.heap).map Prod.fst
  | .error _ => none

section
open Verif.Num Verif.NumHeap

/-- Tree 2 has 10/8 and 10.1/16. -/
def numTwo : List (SOp (NumOp 32 Nat)) := [.fresh, .cow 0 (.insert 0x0A000000#32 8 1), .cow 1 (.insert 0x0A010000#32 16 2)]

/-- For every entry of tree 2: derive from tree 2 the tree without this entry (as tree 3, dropped at the end of the round), list it,
and loop over it reading tree 2. -/
def numDerive : Script (NumOp 32 Nat) (NumQ 32) (ND 32 Nat) :=
  .each 2 (fun e => .call (.cow 2 (.delete e.key e.bits)) (.read 3 .list (.each 3 (fun e' => .read 2 (.exact e'.key e'.bits) .done) (.call (.drop 3) .done)))) (.read 2 .list .done)

/-- The script is legal. -/
example : numDerive.Legal (numImpl 34 32 Nat).toO.cowOk (numImpl 34 32 Nat).toO.inpOk (fun l es => NumRight .list l (.list es)) (fun _ => True) []
    (Book.init.exec numTwo) numTwo.length :=
  Script.Derives.legal (good := fun _ => True) (fun _ _ _ => trivial) (fun _ => trivial) numDerive
    ⟨fun _ => ⟨trivial, fun _ => trivial, trivial, trivial⟩, trivial⟩ _ _ _

/-- Without 10/8 (and all in it) nothing is left, without 10.1/16 there is 10/8, and tree 2 stays as it is; the same in both schedules. -/
example : ∀ eager, (scriptAnswers (numImpl 34 32 Nat).toO (numRead 34) (numLoop 34 (2 ^ 33) 32 Nat) numTwo numDerive eager 1000).map
    (fun l => l.map fun x => x.map fun | .val x => (x, []) | .list l => (none, l.map fun n : ND 32 Nat => n.value)) =
    some [some (none, []), some (none, [1]), some (some 1, []), some (none, [1, 2])] := by decide +kernel

/-- Insertion in place into the tree that the loop runs over: for every entry of tree 0, insert 10.1/16. -/
def numRace : Script (NumOp 32 Nat) (NumQ 32) (ND 32 Nat) :=
  .each 0 (fun _ => .call (.inp 0 (.insert 0x0A010000#32 16 2)) (.read 0 .list .done)) .done

/-- C63, why the restriction: with an insertion in place into the tree a loop runs over, the number of rounds depends on the
schedule. -/
theorem C63_inplace_race : ∃ s, OStore.init.exec (numImpl 34 32 Nat).toO [.fresh, .inp 0 (.insert 0x0A000000#32 8 1)] = .ok s ∧
    ¬ ∃ k, Ends id (numRace.main (numImpl 34 32 Nat).toO (numRead 34) (numLoop 34 (2 ^ 33) 32 Nat) ([], s.roots) .ret) s.heap fun x _ => x.1.length = k := by
  refine ⟨_, rfl, two_answers (n1 := 1000) (n2 := 1000) (fun x : List (Option (Reply Nat (ND 32 Nat))) × List Ptr => x.1.length) (x := 2) (y := 1) ?_ ?_ (by decide)⟩
  · decide +kernel
  · decide +kernel

end

section
open Verif.RB Verif.RBHeap

/-- For every entry of tree 2, derive a tree with one more entry from the newest tree. -/
def kvDerive : Script (KOp Bytes Nat) KVQ (Bytes × Nat) :=
  .each 2 (fun e => .call (.cow 2 (.insert (e.1 ++ [7]) (e.2 + 10))) (.read 3 .list (.call (.drop 3) .done))) (.read 2 .list .done)

example : kvDerive.Legal (fun _ _ => True) kvInp (fun l es => KVRight compareBytes .list l (.list es)) (fun _ => True) [] (Book.init.exec kvShared) kvShared.length :=
  Script.Derives.legal (good := fun _ => True) (fun _ _ _ => trivial) (fun _ => trivial) kvDerive ⟨fun _ => ⟨trivial, trivial, trivial⟩, trivial⟩ _ _ _

example : ∀ eager, scriptAnswers (rbImpl compareBytes 20).toO (kvRead compareBytes 20) (strLoop 20 20 Nat) kvShared kvDerive eager 1000 =
    some [some (.list [([1], 1), ([1, 7], 11), ([2], 2)]), some (.list [([1], 1), ([2], 2), ([2, 7], 12)]), some (.list [([1], 1), ([2], 2)])] := by decide +kernel

end

section
open Verif.IP Verif.IPHeap

/-- Tree 3 has an IPv4 network and an IPv6 network. -/
def netTwo : List (SOp (Op Nat)) :=
  [.fresh, .cow 0 (.insertNet (some (net6 0x20 0x01 0 0 64)) 1), .cow 1 (.insertNet (some ⟨[10, 0, 0, 0], [255, 0, 0, 0]⟩) 2)]

/-- Delete every entry of tree 2 from tree 2. -/
def netDerive {E : Type} : Script (Op Nat) NetQ (IPNet × E) :=
  .each 2 (fun e => .call (.cow 2 (.deleteByNet (some e.1))) (.read 3 (.get (some e.1)) (.read 2 (.get (some e.1)) (.call (.drop 3) .done)))) .done

example : netDerive.Legal (fun _ _ => True) (ipImpl (V := Nat) true 66).inpOk (fun l es => NetRight .list l (.list es)) (fun _ => True) [] (Book.init.exec netTwo) netTwo.length :=
  Script.Derives.legal (good := fun _ => True) (fun _ _ _ => trivial) (fun _ => trivial) netDerive ⟨fun _ => ⟨trivial, trivial, trivial⟩, trivial⟩ _ _ _

example : ∀ eager, scriptAnswers (ipImpl true 66) (netRead 66) (ipLoop 66 (2 ^ 132) Nat) netTwo netDerive eager 3000 =
    some [some (.val none), some (.val (some (.user 2))), some (.val none), some (.val (some (.user 1)))] := by decide +kernel

example : netDerive.Legal (fun _ _ => True) (UIPHeap.uipImpl (V := Nat) true 66).inpOk (fun l es => UNetRight .list l (.list es)) (fun _ => True) [] (Book.init.exec netTwo) netTwo.length :=
  Script.Derives.legal (good := fun _ => True) (fun _ _ _ => trivial) (fun _ => trivial) netDerive ⟨fun _ => ⟨trivial, trivial, trivial⟩, trivial⟩ _ _ _

example : ∀ eager, scriptAnswers (UIPHeap.uipImpl true 66) (unetRead 66) (uipLoop 66 (2 ^ 132) Nat) netTwo netDerive eager 3000 =
    some [some (.val none), some (.val (some 2)), some (.val none), some (.val (some 1))] := by decide +kernel

end

section
open Verif.Domain Verif.DomTree Verif.DomHeap

def domTwo : List (SOp (Op Nat)) := [.fresh, .cow 0 (.insert (nm "b.com") 1), .cow 1 (.insert (nm "a.b.com") 2)]

/-- For every entry of tree 2, insert a further domain. -/
def domDerive : Script (Op Nat) DomQ (Bytes × Nat) :=
  .each 2 (fun e => .call (.cow 2 (.insert (nm "org") e.2)) (.read 3 .list (.call (.drop 3) .done))) (.read 2 .list .done)

example : domDerive.Legal cowOk (inpOk true) (fun l es => DomRight .list l (.list es)) (fun _ => True) [] (Book.init.exec domTwo) domTwo.length :=
  Script.Derives.legal (good := fun o => Named o ∧ ∃ d v, o = .insert d v) (fun l o h => by obtain ⟨h, d, v, rfl⟩ := h; exact ⟨h, trivial⟩) (fun _ => trivial) domDerive
    ⟨fun e => ⟨⟨⟨txt "org", show MakeNameFromString (txt "org") = .ok (nm "org") by decide +kernel⟩, _, _, rfl⟩, trivial, trivial⟩, trivial⟩ _ _ _

example : ∀ eager, scriptAnswers (domImpl true 128) (domRead 128) (domLoop 128 128 Nat) domTwo domDerive eager 3000 =
    some [some (.list [(txt "b.com", 1), (txt "a.b.com", 2), (txt "org", 1)]), some (.list [(txt "b.com", 1), (txt "a.b.com", 2), (txt "org", 2)]),
      some (.list [(txt "b.com", 1), (txt "a.b.com", 2)])] := by decide +kernel

end

section
open Verif.DL Verif.DLHeap

/-- For every entry of tree 2, delete it. -/
def labelDerive : Script (DL.Op Nat) LabelQ (Bytes × Nat) :=
  .each 2 (fun e => .call (.cow 2 (.rawDelete e.1)) (.read 3 .list (.call (.drop 3) .done))) (.read 2 .list .done)

def labelTwo : List (SOp (DL.Op Nat)) := [.fresh, .cow 0 (.insert [97] 1), .cow 1 (.rawInsert [65, 66] 2)]

example : labelDerive.Legal dlCow (dlInp true) (fun l es => LabelRight .list l (.list es)) (fun _ => True) [] (Book.init.exec labelTwo) labelTwo.length :=
  Script.Derives.legal (good := fun o => ∃ l, o = .rawDelete l) (fun l o h => by obtain ⟨k, rfl⟩ := h; exact ⟨_, .rawDelete⟩) (fun _ => trivial) labelDerive
    ⟨fun e => ⟨⟨_, rfl⟩, trivial, trivial⟩, trivial⟩ _ _ _

example : labelDerive.Legal (fun l o => dlCow l o ∧ Short o) (fun l o => dlInp true l o ∧ Short o) TextRight (fun _ => True) [] (Book.init.exec labelTwo) labelTwo.length :=
  Script.Derives.legal (good := fun o => ∃ l, o = .rawDelete l) (fun l o h => by obtain ⟨k, rfl⟩ := h; exact ⟨⟨_, .rawDelete⟩, fun l v h => by cases h⟩) (fun _ => trivial) labelDerive
    ⟨fun e => ⟨⟨_, rfl⟩, trivial, trivial⟩, trivial⟩ _ _ _

example : ∀ eager, scriptAnswers (dlImpl true 20) (labelRead 20) (dlRawLoop 20 20 Nat) labelTwo labelDerive eager 3000 =
    some [some (.list [([65, 66], 2)]), some (.list [([65], 1)]), some (.list [([65], 1), ([65, 66], 2)])] := by decide +kernel

/-- In `Enumerate` the labels are text, in lower case, so nothing is deleted. -/
example : ∀ eager, scriptAnswers (dlImpl true 20) (labelRead 20) (dlLoop 20 20 Nat) labelTwo labelDerive eager 3000 =
    some [some (.list [([65], 1), ([65, 66], 2)]), some (.list [([65], 1), ([65, 66], 2)]), some (.list [([65], 1), ([65, 66], 2)])] := by decide +kernel

end

end Verif.Props
