import Verif.UIPHeap.KinHistory
import Verif.Props.UIptreeHeap

/-!
# Property theorems for in-place insertions into the generated IP trees that share nodes with other trees (C98)

C59 allows an in-place call only on a tree that shares nothing with the other trees the client holds.  Here every held tree may be
modified in place.  Histories and the client's record are those of `UIptreeHeap.lean`; all trees start from `NewTree()`.
-/

namespace Verif.Props
open Verif Verif.Heap
open Verif.IP (Op OpNet)
open Verif.UIPHeap (UD TRep Leaves uipImpl uipImpl_kin isIns)

section
variable {V : Type} [Inhabited V]

/-- C98: in every history of InsertNet, InsertIP, DeleteByNet, DeleteByIP, InplaceInsertNet and InplaceInsertIP calls on any held
trees, shared or not, no call panics, and every held tree shows exactly the networks of a chain of calls as `KinRun` allows: its own
calls, and of the in-place calls on other trees of the same origin some.  Trees of an origin that is never modified in place show the
networks of their own calls. -/
theorem C98_history {f : Nat} (hf : 66 ≤ f) (ops : List (SOp (Op V))) (hl : KinLegal isIns ops) :
    ∃ s b, OStore.init.exec (uipImpl true f) ops = .ok s ∧ KinRun Book.init ops b ∧ s.roots.length = b.vs.length ∧
      (∀ (i : Nat) r v, s.roots[i]? = some r → b.vs[i]? = some v → UShows f s.heap r v.2) ∧
      ∀ k, Spares k Book.init ops → ∀ (i : Nat) r v, s.roots[i]? = some r → (Book.init.exec ops).vs[i]? = some v → v.1 = k → UShows f s.heap r v.2 := by
  obtain ⟨s, b, home, e, hr, hi⟩ := kin_history (uipImpl_kin (V := V) hf) isIns (fun _ _ h => ⟨rfl, h⟩) (fun _ _ => trivial) ops (g := fun _ => none) (kinv_init _ _) hl
  obtain ⟨h1, h2⟩ := hi.get
  have ob : ∀ (i : Nat) r v, s.roots[i]? = some r → b.vs[i]? = some v → UShows f s.heap r v.2 := fun i r v hr hv => by
    obtain ⟨F, t, a1, _, _, a3⟩ := h2 i r v hr hv
    exact uShows_of_rep hf a3 a1
  refine ⟨s, b, e, hr, h1, ob, fun k hk i r v hri hv hvk => ?_⟩
  obtain ⟨_, g2, g3⟩ := Agree.exec (k := k) (b := Book.init) (c := Book.init) ⟨rfl, rfl, by simp [Book.init]⟩ hr hk
  have hil : i < b.vs.length := by rw [g2]; exact (List.getElem?_eq_some_iff.1 hv).1
  have hb := List.getElem?_eq_getElem hil
  rw [← (g3 i _ v hb hv).2 hvk]
  exact ob i r _ hri hb

/-- C98, one call: after any such history, an InplaceInsertNet into any held tree does not panic; the tree shows the networks shown
before and the new one; every other held tree shows what it showed before or that with the new network, the latter only if it has the
same origin. -/
theorem C98_inplace {f : Nat} (hf : 66 ≤ f) (ops : List (SOp (Op V))) (hl : KinLegal isIns ops) (n : Option IPNet) (x : V) :
    ∃ s b, OStore.init.exec (uipImpl true f) ops = .ok s ∧ KinRun Book.init ops b ∧ ∀ (i : Nat) r v, s.roots[i]? = some r → b.vs[i]? = some v →
      UShows f s.heap r v.2 ∧ ∃ h', (UIPHeap.InplaceInsertNetP f r n x).run s.heap = .ok ((), h') ∧ UShows f h' r (.insertNet n x :: v.2) ∧
        ∀ (j : Nat) q u, s.roots[j]? = some q → b.vs[j]? = some u → UShows f s.heap q u.2 ∧
          (UShows f h' q u.2 ∨ (u.1 = v.1 ∧ UShows f h' q (.insertNet n x :: u.2))) := by
  have hI := uipImpl_kin (V := V) hf
  obtain ⟨s, b, home, e, hr, hi⟩ := kin_history hI isIns (fun _ _ h => ⟨rfl, h⟩) (fun _ _ => trivial) ops (g := fun _ => none) (kinv_init _ _) hl
  refine ⟨s, b, e, hr, fun i r v hri hv => ?_⟩
  obtain ⟨F, t, a1, _, _, a3⟩ := hi.get.2 i r v hri hv
  refine ⟨uShows_of_rep hf a3 a1, ?_⟩
  obtain ⟨s', b', home', e', hs, hi'⟩ := kstep hI isIns (fun _ _ h => ⟨rfl, h⟩) (fun _ _ => trivial) hi (.inp i (.insertNet n x)) (by rintro _ _ e; cases e; trivial)
  have run : ∃ h', (UIPHeap.InplaceInsertNetP f r n x).run s.heap = .ok ((), h') ∧ s' = ⟨h', s.roots.set i r⟩ := by
    simp only [OStore.step, hri] at e'
    have e2 : (uipImpl (V := V) true f).inp (.insertNet n x) r = (do UIPHeap.InplaceInsertNetP f r n x; pure r) := rfl
    rw [e2, Prog.run_bind] at e'
    cases e1 : (UIPHeap.InplaceInsertNetP f r n x).run s.heap with
    | error er => rw [e1] at e'; cases e'
    | ok z =>
      rw [e1] at e'
      cases e'
      exact ⟨_, rfl, rfl⟩
  obtain ⟨h', r1, rfl⟩ := run
  have hil : i < s.roots.length := (List.getElem?_eq_some_iff.1 hri).1
  have hsame : s.roots.set i r = s.roots := by
    apply List.ext_getElem?
    intro j
    rw [List.getElem?_set]
    by_cases ej : i = j
    · subst ej; simp [hil]; exact (List.getElem?_eq_some_iff.1 hri).2.symm
    · simp [ej]
  rw [hsame] at hi'
  have ob : ∀ (j : Nat) q u, s.roots[j]? = some q → b'.vs[j]? = some u → UShows f h' q u.2 := fun j q u hq hu => by
    obtain ⟨F, t, a1, _, _, a3⟩ := hi'.get.2 j q u hq hu
    exact uShows_of_rep hf a3 a1
  cases hs with
  | inpOut e => rw [hv] at e; cases e
  | @inp _ _ _ v' g1 g2 g3 g4 g5 =>
    rw [hv] at g1; cases g1
    refine ⟨h', r1, ob i r _ hri g4, fun j q u hq hu => ⟨?_, ?_⟩⟩
    · obtain ⟨F, t, a1, _, _, a3⟩ := hi.get.2 j q u hq hu
      exact uShows_of_rep hf a3 a1
    · rcases g5 j u hu with k | ⟨k, k'⟩
      · exact .inl (ob j q _ hq k)
      · exact .inr ⟨k, ob j q _ hq k'⟩

end

/-! ## Concrete cases -/

/-- Tree 1 = 2001::/64, tree 2 = tree 1 with 2001::1/128 and tree 3 = tree 2 with 10.0.0.0/8; trees 4 and 5 of their own; in-place
calls on trees 3 and 2.  The last call on tree 3 writes 2001::/16, spelled with bits behind the mask. -/
def uipShared : List (SOp (Op Nat)) :=
  [.fresh, .cow 0 (.insertNet (some (net6 0x20 0x01 0 0 64)) 1), .cow 1 (.insertNet (some (net6 0x20 0x01 0 1 128)) 2), .cow 2 (.insertNet (some (net4 10 0 0 0 8)) 3),
   .fresh, .inp 3 (.insertNet (some (net6 0x20 0x01 0 3 128)) 4), .inp 3 (.insertIP [10, 1, 1, 1] 5), .inp 2 (.insertNet (some (net6 0x20 0x01 0 0 16)) 6),
   .cow 4 (.insertNet (some (net6 0x20 0x01 0 0 64)) 7), .cow 2 (.deleteByIP [10, 1, 1, 1]), .inp 3 (.insertNet (some (net6 0x20 0x01 0xff 0xff 16)) 8)]

/-- The sample meets the hypotheses of C98; the trees 4 and 5 are of an origin that is not modified in place. -/
example : KinLegal isIns uipShared ∧ Spares 1 Book.init uipShared := by
  refine ⟨⟨trivial, trivial, trivial, trivial, trivial⟩, ?_, ?_, ?_, ?_, ?_, ?_, ?_, ?_, ?_, ?_, ?_, trivial⟩
  all_goals
    rintro i o v h e
    cases h
    try (cases e; decide)

/-- The sample is not one that C59 covers. -/
example : ¬ (Book.init : Book (Op Nat)).LegalAll2 (fun _ _ => True) (uipImpl true 66).inpOk uipShared := by
  rintro ⟨_, _, _, _, _, h, _⟩
  exact (h _ rfl).2 2 _ (by decide) rfl rfl

/-- What the trees list: 2001::3/128, put into tree 3, shows in tree 2, from which tree 3 was derived, and in tree 6, derived from tree 2
later; 10.1.1.1/32 and the two values of 2001::/16 show only in the tree they were put into, and tree 1 keeps what it had. -/
example : uipAnswers true uipShared = some [some [], some [1], some [6, 1, 2, 4], some [3, 5, 8, 1, 2, 4], some [], some [7], some [6, 1, 2, 4]] := by decide +kernel

end Verif.Props
