import Verif.RBHeap.Tidy
import Verif.DLHeap.Tidy
import Verif.Props.SharedIptree

/-!
# Property theorems for InplaceInsert on red-black trees that share nodes with other trees (C99)

C77 and C97 show that an InplaceInsert can take keys out of other trees.  Here is what else it can do to strtree, dltree and domaintree
when the tree shares nodes with another one: later calls can panic, also the copy-on-write ones, and later calls can run forever.  What
stays: no tree ever pairs a key with a value that was not inserted under it.
-/

namespace Verif.Props
open Verif Verif.Heap Verif.Heap.Prog

section
variable {K V : Type} [Inhabited K] [Inhabited V] {cmp : K → K → Int}

/-- C99 (what holds): after any history of Insert, Delete and InplaceInsert calls, shared trees or not, where calls may have panicked and the
caller recovered, a Get that returns a value returns one that was given to an Insert or InplaceInsert under an equal key, or nil, the value
of a new node until it is stored and of the helper node above the root. -/
theorem C99_get (hc : LawfulCmp cmp) {f g : Nat} {ops : List (SOp (KOp K V) × Bool)} {s : OStore (RB.RD K V) Ptr}
    (he : OStore.init.execR (RBHeap.rbImpl cmp f).toO ops = some s) {r : Ptr} {key : K} {v : V}
    (hg : answer (RBHeap.getP cmp g r key) s.heap = some (some v)) :
    v = default ∨ ∃ i k b, ((SOp.cow i (.insert k v), b) ∈ ops ∨ (SOp.inp i (.insert k v), b) ∈ ops) ∧ cmp k key = 0 := by
  obtain ⟨d, hd, rfl, hk⟩ := RBHeap.answer_known hc.refl he (RBHeap.getP_known g r) hg v rfl
  refine hd.2.imp id fun ⟨k, hm, e⟩ => ?_
  obtain ⟨i, b, hi⟩ := RBHeap.mem_pairs hm
  exact ⟨i, k, b, hi, (hc.congr_left e).2.1 hk⟩

/-- C99 (what holds), listing: after any such history every key listed was inserted and every value listed was inserted under a key equal
to the one it is listed with; otherwise it is the key or value of the helper node or the value of a new node. -/
theorem C99_enumerate (hc : LawfulCmp cmp) {f g : Nat} {ops : List (SOp (KOp K V) × Bool)} {s : OStore (RB.RD K V) Ptr}
    (he : OStore.init.execR (RBHeap.rbImpl cmp f).toO ops = some s) {r : Ptr} {l : List (K × V)} (hg : answer (RBHeap.enumerateP g r) s.heap = some l) :
    ∀ key v, (key, v) ∈ l → (key = default ∨ ∃ i w b, (SOp.cow i (.insert key w), b) ∈ ops ∨ (SOp.inp i (.insert key w), b) ∈ ops) ∧
      (v = default ∨ ∃ i k b, ((SOp.cow i (.insert k v), b) ∈ ops ∨ (SOp.inp i (.insert k v), b) ∈ ops) ∧ cmp key k = 0) := by
  intro key v hm
  obtain ⟨d, hd, h1, h2⟩ := RBHeap.answer_known hc.refl he (RBHeap.enumerateP_known g r) hg (key, v) hm
  subst h1 h2
  refine ⟨hd.1.imp id fun ⟨w, hw⟩ => ?_, hd.2.imp id fun ⟨k, hk, e⟩ => ?_⟩
  · obtain ⟨i, b, hi⟩ := RBHeap.mem_pairs hw
    exact ⟨i, w, b, hi⟩
  · obtain ⟨i, b, hi⟩ := RBHeap.mem_pairs hk
    exact ⟨i, k, b, hi, e⟩

end

section
variable {V : Type} [Inhabited V]

/-- C99 (dltree): the same for the labels of dltree; texts are the labels `MakeLabel` gives for them. -/
theorem C99_dltree_get {st : Bool} {f g : Nat} {ops : List (SOp (DL.Op V) × Bool)} {s : OStore (DLHeap.LD V) Ptr}
    (he : OStore.init.execR (DLHeap.dlImpl st f) ops = some s) {t : Ptr} {label : Bytes} {v : V}
    (hg : answer (DLHeap.RawGetP DLHeap.lm g t label) s.heap = some (some v)) :
    v = default ∨ ∃ i o b, ((SOp.cow i o, b) ∈ ops ∨ (SOp.inp i o, b) ∈ ops) ∧ (o = .rawInsert label v ∨ ∃ text, o = .insert text v ∧ DL.labelOf text = some label) :=
  (DLHeap.answer_RawGetP he hg).imp id DLHeap.mem_puts

/-- C99 (dltree), listing. -/
theorem C99_dltree_enumerate {st : Bool} {f g : Nat} {ops : List (SOp (DL.Op V) × Bool)} {s : OStore (DLHeap.LD V) Ptr}
    (he : OStore.init.execR (DLHeap.dlImpl st f) ops = some s) {t : Ptr} {l : List (Bytes × V)} (hg : answer (DLHeap.RawEnumerateP DLHeap.lm g t) s.heap = some l) :
    ∀ label v, (label, v) ∈ l →
      (label = [] ∨ ∃ w i o b, ((SOp.cow i o, b) ∈ ops ∨ (SOp.inp i o, b) ∈ ops) ∧ (o = .rawInsert label w ∨ ∃ text, o = .insert text w ∧ DL.labelOf text = some label)) ∧
      (v = default ∨ ∃ i o b, ((SOp.cow i o, b) ∈ ops ∨ (SOp.inp i o, b) ∈ ops) ∧ (o = .rawInsert label v ∨ ∃ text, o = .insert text v ∧ DL.labelOf text = some label)) := by
  intro label v hm
  obtain ⟨h1, h2⟩ := DLHeap.answer_RawEnumerateP he hg label v hm
  exact ⟨h1.imp id fun ⟨w, hw⟩ => ⟨w, DLHeap.mem_puts hw⟩, h2.imp id DLHeap.mem_puts⟩

end

/-! ## Calls that panic -/

/-- The call ends in a panic. -/
def panicked {α : Type} : Except Err α → Bool
  | .error .panic => true
  | _ => false

theorem eq_of_panicked {α : Type} {x : Except Err α} (h : panicked x = true) : x = .error .panic := by
  unfold panicked at h
  split at h
  · rfl
  · cases h

/-- Tree 0 with the keys 2 and 3; tree 1 derived from it with a new value for 2; 4 put into tree 0, 6 and 5 into tree 1, in place. -/
def strShared : List (SOp (KOp Bytes Nat)) :=
  [.fresh, .inp 0 (.insert [2] 1), .inp 0 (.insert [3] 2), .cow 0 (.insert [2] 3), .inp 0 (.insert [4] 4), .inp 1 (.insert [6] 5), .inp 1 (.insert [5] 6)]

/-- What the trees of a history list. -/
def strAnswers (ops : List (SOp (KOp Bytes Nat))) : Option (List (Option (List (Bytes × Nat)))) :=
  match Store.init.exec (RBHeap.rbImpl compareBytes 33) ops with
  | .ok s => some (s.roots.map fun r => answer (RBHeap.enumerateP 33 r) s.heap)
  | .error _ => none

/-- C99 (strtree): after the calls of `strShared`, all of which return, a copy-on-write Insert into tree 0 panics. -/
theorem C99_insert_panics :
    strAnswers strShared = some [some [([2], 1), ([3], 2), ([4], 4), ([5], 6), ([6], 5)], some [([2], 3), ([2], 1), ([3], 2), ([4], 4), ([5], 6), ([6], 5)]] ∧
    Store.init.exec (RBHeap.rbImpl compareBytes 33) (strShared ++ [.cow 0 (.insert [6] 7)]) = .error .panic := by
  refine ⟨by decide +kernel, eq_of_panicked ?_⟩
  decide +kernel

/-- C99 (strtree): the key 2 is listed twice by tree 1 of `strShared`; and here an InplaceInsert panics after calls that return. -/
theorem C99_inplace_panics :
    strAnswers [.fresh, .inp 0 (.insert [1] 1), .inp 0 (.insert [2] 2), .cow 0 (.insert [1] 3), .inp 1 (.insert [3] 4), .inp 0 (.insert [6] 5), .inp 0 (.insert [5] 6)] =
      some [some [([1], 1), ([1], 3), ([2], 2), ([3], 4), ([5], 6), ([6], 5)], some [([1], 3), ([2], 2), ([3], 4), ([5], 6), ([6], 5)]] ∧
    Store.init.exec (RBHeap.rbImpl compareBytes 33) [.fresh, .inp 0 (.insert [1] 1), .inp 0 (.insert [2] 2), .cow 0 (.insert [1] 3), .inp 1 (.insert [3] 4),
      .inp 0 (.insert [6] 5), .inp 0 (.insert [5] 6), .inp 1 (.insert [4] 7)] = .error .panic := by
  refine ⟨by decide +kernel, eq_of_panicked ?_⟩
  decide +kernel

/-! ## Calls that never return -/

/-- Tree 0 with seven keys put in place, tree 1 derived from it with a new value for 3, and five InplaceInsert calls on the two. -/
def strCyclic : List (SOp (KOp Bytes Nat)) :=
  [.fresh, .inp 0 (.insert [7] 1), .inp 0 (.insert [3] 2), .inp 0 (.insert [8] 3), .inp 0 (.insert [2] 4), .inp 0 (.insert [5] 5), .inp 0 (.insert [6] 6),
   .inp 0 (.insert [1] 7), .cow 0 (.insert [3] 8), .inp 1 (.insert [0] 9), .inp 1 (.insert [4] 10), .inp 0 (.insert [1] 11), .inp 0 (.insert [6] 12), .inp 1 (.insert [4] 13)]

/-- The node at `a` leads to the node at `b` on the way to `key`. -/
def leads (h : Heap (RB.RD Bytes Nat)) (key : Bytes) (a b : Nat) : Bool :=
  match h.mem a with
  | none => false
  | some c => decide (compareBytes c.d.key key ≠ 0) && decide (c.child (decide (compareBytes c.d.key key < 0)) = some b)

/-- There is a node at `a` and its pointers lead to addresses below `m`. -/
def staysIn (h : Heap (RB.RD Bytes Nat)) (m a : Nat) : Bool :=
  match h.mem a with
  | none => false
  | some c => (match c.c0 with | none => true | some b => decide (b < m)) && (match c.c1 with | none => true | some b => decide (b < m))

def strCyclicCheck : Bool :=
  match Store.init.exec (RBHeap.rbImpl compareBytes 33) strCyclic with
  | .error _ => false
  | .ok s => decide (s.roots = [some 6, some 8]) && leads s.heap [2, 0] 6 8 && leads s.heap [2, 0] 8 15 && leads s.heap [2, 0] 15 12 && leads s.heap [2, 0] 12 6 &&
      (List.range 24).all (staysIn s.heap 24)

/-- C99 (strtree): after the calls of `strCyclic`, all of which return, a Get for the absent key [2, 0] in either tree never returns, and
Enumerate of either tree never ends, whatever the number of steps allowed. -/
theorem C99_never_returns :
    ∃ s : Store (RB.RD Bytes Nat), Store.init.exec (RBHeap.rbImpl compareBytes 33) strCyclic = .ok s ∧ s.roots.length = 2 ∧
      ∀ r ∈ s.roots, ∀ g, (RBHeap.getP compareBytes g r [2, 0]).run s.heap = .error .fuel ∧ (RBHeap.enumerateP g r).run s.heap = .error .fuel := by
  have h : strCyclicCheck = true := by decide +kernel
  unfold strCyclicCheck at h
  split at h
  · cases h
  · rename_i s hs
    simp only [Bool.and_eq_true, decide_eq_true_eq, List.all_eq_true, List.mem_range] at h
    obtain ⟨⟨⟨⟨⟨h1, h2⟩, h3⟩, h4⟩, h5⟩, h6⟩ := h
    have lead : ∀ {a b}, leads s.heap [2, 0] a b = true → ∃ c, s.heap.mem a = some c ∧ compareBytes c.d.key [2, 0] ≠ 0 ∧
        c.child (decide (compareBytes c.d.key [2, 0] < 0)) = some b := by
      intro a b e
      unfold leads at e
      split at e
      · cases e
      · rename_i c hc
        simp only [Bool.and_eq_true, decide_eq_true_eq] at e
        exact ⟨c, hc, e.1, e.2⟩
    let S : Nat → Prop := fun a => a = 6 ∨ a = 8 ∨ a = 15 ∨ a = 12
    have hS : ∀ a, S a → ∃ c b, s.heap.mem a = some c ∧ compareBytes c.d.key [2, 0] ≠ 0 ∧ c.child (decide (compareBytes c.d.key [2, 0] < 0)) = some b ∧ S b := by
      rintro a (rfl | rfl | rfl | rfl)
      · obtain ⟨c, a1, a2, a3⟩ := lead h2; exact ⟨c, 8, a1, a2, a3, .inr (.inl rfl)⟩
      · obtain ⟨c, a1, a2, a3⟩ := lead h3; exact ⟨c, 15, a1, a2, a3, .inr (.inr (.inl rfl))⟩
      · obtain ⟨c, a1, a2, a3⟩ := lead h4; exact ⟨c, 12, a1, a2, a3, .inr (.inr (.inr rfl))⟩
      · obtain ⟨c, a1, a2, a3⟩ := lead h5; exact ⟨c, 6, a1, a2, a3, .inl rfl⟩
    have hS' : ∀ a, S a → ∃ c b, s.heap.mem a = some c ∧ (c.c0 = some b ∨ c.c1 = some b) ∧ S b := by
      intro a ha
      obtain ⟨c, b, a1, _, a3, a4⟩ := hS a ha
      refine ⟨c, b, a1, ?_, a4⟩
      unfold Cell.child at a3
      split at a3
      · exact .inr a3
      · exact .inl a3
    have hcl : ∀ a, a < 24 → ∃ c, s.heap.mem a = some c ∧ ∀ b, c.c0 = some b ∨ c.c1 = some b → b < 24 := by
      intro a ha
      have := h6 a ha
      unfold staysIn at this
      split at this
      · cases this
      · rename_i c hc
        simp only [Bool.and_eq_true] at this
        refine ⟨c, hc, fun b hb => ?_⟩
        rcases hb with hb | hb
        · have e := this.1; simp only [hb] at e; exact of_decide_eq_true e
        · have e := this.2; simp only [hb] at e; exact of_decide_eq_true e
    refine ⟨s, hs, by rw [h1]; rfl, fun r hr g => ?_⟩
    rw [h1] at hr
    have : ∃ a, r = some a ∧ S a := by
      simp only [List.mem_cons, List.not_mem_nil, or_false] at hr
      rcases hr with rfl | rfl
      · exact ⟨6, rfl, .inl rfl⟩
      · exact ⟨8, rfl, .inr (.inl rfl)⟩
    obtain ⟨a, rfl, ha⟩ := this
    exact ⟨RBHeap.getP_loops hS g ha, RBHeap.enumerateP_loops (C := (· < 24)) hS' hcl g ha (by rcases ha with rfl | rfl | rfl | rfl <;> decide)⟩

/-! ## dltree and domaintree -/

/-- C99 (dltree): the same with labels. -/
theorem C99_dltree_panics :
    OStore.init.exec (DLHeap.dlImpl true 30) [.fresh, .inp 0 (.insert (txt "b") 1), .inp 0 (.insert (txt "c") 2), .cow 0 (.insert (txt "b") 3), .inp 0 (.insert (txt "d") 4),
      .inp 1 (.insert (txt "f") 5), .inp 1 (.insert (txt "e") 6), .cow 0 (.insert (txt "f") 7)] = .error .panic := by
  apply eq_of_panicked
  decide +kernel

/-- C99 (domaintree): the same with names. -/
theorem C99_domaintree_panics :
    OStore.init.exec (DomHeap.domImpl true 128) [.fresh, .inp 0 (.inplace (nm "b") 1), .inp 0 (.inplace (nm "c") 2), .cow 0 (.insert (nm "b") 3), .inp 0 (.inplace (nm "d") 4),
      .inp 1 (.inplace (nm "f") 5), .inp 1 (.inplace (nm "e") 6), .cow 0 (.insert (nm "f") 7)] = .error .panic := by
  apply eq_of_panicked
  decide +kernel

/-- The calls before the one that panics return, and a RawGet after them finds a value. -/
example : (match OStore.init.exec (DLHeap.dlImpl true 30) [.fresh, .inp 0 (.insert (txt "b") 1), .inp 0 (.insert (txt "c") 2), .cow 0 (.insert (txt "b") 3),
      .inp 0 (.insert (txt "d") 4), .inp 1 (.insert (txt "f") 5), .inp 1 (.insert (txt "e") 6)] with
    | .ok s => s.roots.map fun t => answer (DLHeap.RawGetP DLHeap.lm 30 t (txt "B")) s.heap
    | .error _ => []) = [some (some 1), some (some 3)] := by decide +kernel

/-! ## The hypotheses of C99_get and C99_enumerate are met by `strShared` with a panic recovered from -/

/-- `strShared`, then the Insert into tree 0 that panics, an InplaceInsert that does, then a Delete and an InplaceInsert that return. -/
def strRecovered : List (SOp (KOp Bytes Nat) × Bool) :=
  strShared.map (fun o => (o, true)) ++ [(.cow 0 (.insert [6] 7), false), (.inp 0 (.insert [7] 8), false), (.cow 1 (.delete [3]), true), (.inp 0 (.insert [1] 9), true)]

example : (match OStore.init.execR (RBHeap.rbImpl compareBytes 33).toO strRecovered with
    | some s => s.roots.map fun r => (answer (RBHeap.getP compareBytes 33 r [6]) s.heap, answer (RBHeap.enumerateP 33 r) s.heap)
    | none => []) = [(some (some 5), some [([1], 9), ([2], 1), ([3], 2), ([4], 4), ([5], 6), ([6], 5)]),
      (some (some 5), some [([2], 3), ([1], 9), ([2], 1), ([3], 2), ([4], 4), ([5], 6), ([6], 5)]),
      (some (some 5), some [([2], 3), ([2], 1), ([4], 4), ([5], 6), ([6], 5)])] := by decide +kernel

end Verif.Props
