import Verif.NumHeap.KinHistory
import Verif.Props.NumtreeHeap
import Verif.Props.StrtreeHeap

/-!
# Property theorems for InplaceInsert on trees that share nodes with other trees (C77)

C05 and C06 allow an in-place call only on a tree that shares nothing with the other trees the client holds.  Here every
held tree may be modified in place.  The older trees are then not safe, and for numtree exactly this holds: each of them stays
as it is or receives the same insertion.
-/

namespace Verif.Props
open Verif Verif.Heap Verif.Num Verif.NumHeap

section
variable {w : Nat} {V : Type} [LawfulKeySize w] [Inhabited V]

/-- C77 (numtree): in every history of Insert, Delete and InplaceInsert calls on any held trees, shared or not, no call panics,
and every held root shows exactly the entries of a chain of calls as `ChainRun` allows: its own calls, and of the in-place
calls on other roots some. -/
theorem C77_history {f : Nat} (hf : w + 2 ≤ f) (ops : List (SOp (NumOp w V))) (hl : AnyLegal (numImpl f w V).inpOk ops) :
    ∃ s C, Store.init.exec (numImpl f w V) ops = .ok s ∧ ChainRun [] ops C ∧ s.roots.length = C.length ∧
      ∀ (i : Nat) r c, s.roots[i]? = some r → C[i]? = some c → Observes f s.heap r (lastWrite (c.map NumOp.abs)) := by
  obtain ⟨s, C, e, hc, T, _, h1, h2, h3⟩ := shared_history (numImpl_spreads (V := V) hf ops.length) ops (m := 0) (s := Store.init) (C := [])
    (by omega) ⟨[], Heap.ok_empty, rfl, rfl, by simp⟩ hl
  refine ⟨s, C, e, hc, by simp [h1, h2], fun i r c hr hc => ?_⟩
  rw [h1, List.getElem?_map] at hr
  rw [h2, List.getElem?_map] at hc
  cases hT : T[i]? with
  | none => simp [hT] at hr
  | some t =>
    simp only [hT, Option.map_some, Option.some.injEq] at hr hc
    subst hr hc
    obtain ⟨a1, a2, _⟩ := h3 t (List.mem_of_getElem? hT)
    exact observes_of_rep hf a1 a2

/-- C77 (numtree), one call: after any such history, an InplaceInsert into any held root does not panic; the root it returns
shows the entries shown before and the new one; every other held root shows what it showed before or that with the new entry; and a
root with no node in common with the tree inserted into shows what it showed before. -/
theorem C77_inplace {f : Nat} (hf : w + 2 ≤ f) (ops : List (SOp (NumOp w V))) (hl : AnyLegal (numImpl f w V).inpOk ops)
    (k : BitVec w) (bits : Int) (x : V) :
    ∃ s, Store.init.exec (numImpl f w V) ops = .ok s ∧ ∀ (i : Nat) r, s.roots[i]? = some r →
      ∃ m r' h', Observes f s.heap r m ∧ (InplaceInsertP f r k bits x).run s.heap = .ok (r', h') ∧
        Observes f h' r' (m.insert (sig k (clampSpec w bits)) x) ∧
        ∀ (j : Nat) q, s.roots[j]? = some q → ∃ u, Observes f s.heap q u ∧
          (Observes f h' q u ∨ Observes f h' q (u.insert (sig k (clampSpec w bits)) x)) ∧
          ((∀ a, Reach s.heap r a → ¬ Reach s.heap q a) → Observes f h' q u) := by
  have hI := numImpl_spreads (V := V) hf (ops.length + 1)
  obtain ⟨s, C, e, hc, T, _, h1, h2, h3⟩ := shared_history hI ops (m := 0) (s := Store.init) (C := [])
    (by omega) ⟨[], Heap.ok_empty, rfl, rfl, by simp⟩ hl
  refine ⟨s, e, fun i r hr => ?_⟩
  have hget : ∀ (j : Nat) q, s.roots[j]? = some q → ∃ t : ATree (ND w V) × List (NumOp w V), t ∈ T ∧ q = ATree.ptr t.1 := by
    intro j q hq
    rw [h1, List.getElem?_map] at hq
    cases hT : T[j]? with
    | none => simp [hT] at hq
    | some t =>
      simp only [hT, Option.map_some, Option.some.injEq] at hq
      exact ⟨t, List.mem_of_getElem? hT, hq.symm⟩
  obtain ⟨t, ht, rfl⟩ := hget i r hr
  obtain ⟨a1, a2, a3, a4⟩ := h3 t ht
  have hw := hI.inp_ok t.2 (.insert k bits x) t.1 s.heap (by omega) trivial a1 a2 a3
  obtain ⟨p, h', r1, ⟨A', rfl, r2, r3, r4⟩, r5, r6⟩ := Prog.wp_run hw
  refine ⟨_, _, h', observes_of_rep hf a1 a2, r1, observes_of_rep hf r2 r3, fun j q hq => ?_⟩
  obtain ⟨u, hu, rfl⟩ := hget j q hq
  obtain ⟨b1, b2, b3, b4⟩ := h3 u hu
  refine ⟨_, observes_of_rep hf b1 b2, ?_, fun hd => ?_⟩
  · obtain ⟨B', c1, c2, c3, c4⟩ := hI.inp_other t.2 (.insert k bits x) t.1 s.heap (by omega) trivial a1 a2 a3 _ _ r1 u.2 u.1 (by omega) b1 b2 b3
    rw [← c1]
    rcases c4 with c4 | c4
    · exact .inl (observes_of_rep hf c2 (c4.trans b2))
    · exact .inr (observes_of_rep hf c2 c4)
  · refine observes_of_rep hf (ATree.rep_frame b1 r5 fun a ha => r6 a (ATree.rep_lt b1 ha) ?_) b2
    rintro (h4 | h4)
    · exact hd a ((reach_iff a1 a).2 h4) ((reach_iff b1 a).2 ha)
    · have := ATree.rep_lt b1 ha; omega

/-- C77 (numtree), with the origins of the roots: in every such history every held root shows exactly the entries of a chain of calls
as `KinRun` allows: its own calls, and of the in-place calls on other roots of the same origin some.  A nil tree starts an origin, and
a derived root has the origin of the root it was derived from.  Roots of an origin that is never modified in place show the entries of
their own calls. -/
theorem C77_origins {f : Nat} (hf : w + 2 ≤ f) (ops : List (SOp (NumOp w V))) (hl : KinLegal (numImpl f w V).inpOk ops) :
    ∃ s b, OStore.init.exec (numImpl f w V).toO ops = .ok s ∧ KinRun Book.init ops b ∧ s.roots.length = b.vs.length ∧
      (∀ (i : Nat) r v, s.roots[i]? = some r → b.vs[i]? = some v → Observes f s.heap r (lastWrite (v.2.map NumOp.abs))) ∧
      ∀ k, Spares k Book.init ops → ∀ (i : Nat) r v, s.roots[i]? = some r → (Book.init.exec ops).vs[i]? = some v → v.1 = k →
        Observes f s.heap r (lastWrite (v.2.map NumOp.abs)) := by
  obtain ⟨s, b, _, e, hr, hi⟩ := kin_history (numImpl_kin (V := V) hf) (numImpl f w V).inpOk (fun _ _ h => h) (fun _ _ => trivial) ops (g := ()) (kinv_init _ _) hl
  obtain ⟨h1, h2⟩ := hi.get
  have ob : ∀ (i : Nat) r v, s.roots[i]? = some r → b.vs[i]? = some v → Observes f s.heap r (lastWrite (v.2.map NumOp.abs)) := fun i r v hr hv => by
    obtain ⟨F, A, rfl, a1, a2, _⟩ := h2 i r v hr hv
    exact observes_of_rep hf a1 a2
  refine ⟨s, b, e, hr, h1, ob, fun k hk i r v hri hv hvk => ?_⟩
  obtain ⟨_, g2, g3⟩ := Agree.exec (k := k) (b := Book.init) (c := Book.init) ⟨rfl, rfl, by simp [Book.init]⟩ hr hk
  have hil : i < b.vs.length := by rw [g2]; exact (List.getElem?_eq_some_iff.1 hv).1
  have hb := List.getElem?_eq_getElem hil
  rw [← (g3 i _ v hb hv).2 hvk]
  exact ob i r _ hri hb
end

/-! ## Concrete cases -/

/-- Root 1 = 10/8, root 2 = 1 + 10.1/16, root 3 = 2 + 10.2/16; then 10.1.1/24 goes in place into root 3, and 11/8 into root 2. -/
def numDerived : List (SOp (NumOp 32 Nat)) :=
  [.fresh, .cow 0 (.insert 0x0A000000#32 8 1), .cow 1 (.insert 0x0A010000#32 16 2), .cow 2 (.insert 0x0A020000#32 16 3),
   .inp 3 (.insert 0x0A010100#32 24 4), .inp 2 (.insert 0x0B000000#32 8 5)]

/-- The sample meets the hypotheses of C77. -/
example : AnyLegal (numImpl 34 32 Nat).inpOk numDerived := ⟨trivial, trivial, trivial⟩

/-- The sample is not one that C05 and C06 cover. -/
example : ¬ (Book.init : Book (NumOp 32 Nat)).LegalAll (numImpl 34 32 Nat).inpOk numDerived := by
  rintro ⟨_, _, _, _, ⟨_, h⟩, _⟩
  exact h _ rfl 2 _ (by decide) rfl rfl

/-- Values found for 10.1.1/24 and for 11/8 on every root: the first in-place call, into root 3, shows in root 2 as well, and
not in root 1; the second, which puts a new root over root 2, shows in root 2 only. -/
example : (match Store.init.exec (numImpl 34 32 Nat) numDerived with
    | .ok s => s.roots.map fun r => (answer (ExactMatchP 34 r 0x0A010100#32 24) s.heap, answer (ExactMatchP 34 r 0x0B000000#32 8) s.heap)
    | .error _ => []) =
  [(some none, some none), (some none, some none), (some (some 4), some (some 5)), (some (some 4), some none)] := by decide +kernel

/-- Two more roots of another origin, which holds the same networks. -/
def numKin : List (SOp (NumOp 32 Nat)) := numDerived ++ [.fresh, .cow 4 (.insert 0x0A000000#32 8 6), .cow 3 (.delete 0x0A020000#32 16), .inp 6 (.insert 0x0A000000#32 8 7)]

/-- They meet the hypotheses of `C77_origins`; the last roots are of an origin that is not modified in place. -/
example : KinLegal (numImpl 34 32 Nat).inpOk numKin ∧ Spares 1 Book.init numKin := by
  refine ⟨⟨trivial, trivial, trivial, trivial⟩, ?_, ?_, ?_, ?_, ?_, ?_, ?_, ?_, ?_, ?_, trivial⟩
  all_goals
    rintro i o v h e
    cases h
    try (cases e; decide)

/-- The value at 10/8 on every root: the last call shows only in the root it is made on, which was derived by a deletion. -/
example : (match OStore.init.exec (numImpl 34 32 Nat).toO numKin with
    | .ok s => s.roots.map fun r => answer (ExactMatchP 34 r 0x0A000000#32 8) s.heap
    | .error _ => []) = [some none, some (some 1), some (some 1), some (some 1), some none, some (some 6), some (some 7)] := by decide +kernel

/-! ## strtree -/

/-- A tree of four keys built in place, a second tree derived from it by Insert. -/
def kvDerived : List (SOp (KOp Bytes Nat)) :=
  [.fresh, .inp 0 (.insert [2] 2), .inp 0 (.insert [1] 1), .inp 0 (.insert [6] 6), .inp 0 (.insert [4] 4), .cow 0 (.insert [0] 0)]

/-- What the second tree of `kvDerived`, at node `q`, answers before and after [5] is put into the first tree in place. -/
def kvDerivedCheck (q : Ptr) : Bool :=
  match Store.init.exec (RBHeap.rbImpl compareBytes 33) kvDerived with
  | .error _ => false
  | .ok s =>
    match s.step (RBHeap.rbImpl compareBytes 33) (.inp 0 (.insert [5] 5)) with
    | .error _ => false
    | .ok s' =>
      decide (s.roots[1]? = some q) && decide (s'.roots[1]? = some q) && decide (answer (RBHeap.getP compareBytes 33 q [4]) s.heap = some (some 4)) &&
        decide (answer (RBHeap.getP compareBytes 33 q [4]) s'.heap = some none) && decide (answer (RBHeap.getP compareBytes 33 q [5]) s'.heap = some none) &&
        decide (answer (RBHeap.enumerateP 33 q) s'.heap = some [([0], 0), ([1], 1), ([2], 2), ([6], 6)])

theorem kvDerived_check : ∃ q, kvDerivedCheck (some q) = true := ⟨8, by decide +kernel⟩

/-- C77 (strtree): there the insertion does not just show in the other tree, it can take a key out of it: after an InplaceInsert
of another key into the first tree of `kvDerived`, the second tree no longer finds the key [4] it held, and does not find the new
key either. -/
theorem C77_strtree_loses_key :
    ∃ (s s' : Store (RB.RD Bytes Nat)) (q : Ptr), Store.init.exec (RBHeap.rbImpl compareBytes 33) kvDerived = .ok s ∧
      s.step (RBHeap.rbImpl compareBytes 33) (.inp 0 (.insert [5] 5)) = .ok s' ∧ s.roots[1]? = some q ∧ s'.roots[1]? = some q ∧
      answer (RBHeap.getP compareBytes 33 q [4]) s.heap = some (some 4) ∧ answer (RBHeap.getP compareBytes 33 q [4]) s'.heap = some none ∧
      answer (RBHeap.getP compareBytes 33 q [5]) s'.heap = some none ∧
      answer (RBHeap.enumerateP 33 q) s'.heap = some [([0], 0), ([1], 1), ([2], 2), ([6], 6)] := by
  obtain ⟨q, h⟩ := kvDerived_check
  unfold kvDerivedCheck at h
  split at h
  · simp at h
  · rename_i s hs
    split at h
    · simp at h
    · rename_i s' hs'
      simp only [Bool.and_eq_true, decide_eq_true_eq] at h
      obtain ⟨⟨⟨⟨⟨h1, h2⟩, h3⟩, h4⟩, h5⟩, h6⟩ := h
      exact ⟨s, s', some q, hs, hs', h1, h2, h3, h4, h5, h6⟩

end Verif.Props
