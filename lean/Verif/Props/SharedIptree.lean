import Verif.IPHeap.KinHistory
import Verif.Props.IptreeHeap
import Verif.Props.DltreeHeap
import Verif.Props.DomaintreeHeap

/-!
# Property theorems for in-place insertions into iptrees, dltrees and domaintrees that share nodes with other trees (C97)

C42 and C45 allow an in-place call only on a tree that shares nothing with the other trees the client holds.  Here every held
tree may be modified in place.  Histories and the client's record are those of `IptreeHeap.lean`; all trees start from `NewTree()`.
-/

namespace Verif.Props
open Verif Verif.Heap Verif.IP Verif.IPHeap

section
variable {V : Type} [Inhabited V]

/-- C97: in every history of InsertNet, InsertIP, DeleteByNet, DeleteByIP, InplaceInsertNet and InplaceInsertIP calls on any held
trees, shared or not, no call panics, and every held tree shows exactly the networks of a chain of calls as `KinRun` allows: its own
calls, and of the in-place calls on other trees of the same origin some.  Trees of an origin that is never modified in place show the
networks of their own calls. -/
theorem C97_history {f : Nat} (hf : 66 ≤ f) (ops : List (SOp (Op V))) (hl : KinLegal isIns ops) :
    ∃ s b, OStore.init.exec (ipImpl true f) ops = .ok s ∧ KinRun Book.init ops b ∧ s.roots.length = b.vs.length ∧
      (∀ (i : Nat) r v, s.roots[i]? = some r → b.vs[i]? = some v → NetObserves f s.heap r v.2) ∧
      ∀ k, Spares k Book.init ops → ∀ (i : Nat) r v, s.roots[i]? = some r → (Book.init.exec ops).vs[i]? = some v → v.1 = k → NetObserves f s.heap r v.2 := by
  obtain ⟨s, b, home, e, hr, hi⟩ := kin_history (ipImpl_kin (V := V) hf) isIns (fun _ _ h => ⟨rfl, h⟩) (fun _ _ => trivial) ops (g := fun _ => none) (kinv_init _ _) hl
  obtain ⟨h1, h2⟩ := hi.get
  have ob : ∀ (i : Nat) r v, s.roots[i]? = some r → b.vs[i]? = some v → NetObserves f s.heap r v.2 := fun i r v hr hv => by
    obtain ⟨F, t, a1, _, a3⟩ := h2 i r v hr hv
    exact netObserves_of_rep hf a3 a1
  refine ⟨s, b, e, hr, h1, ob, fun k hk i r v hri hv hvk => ?_⟩
  obtain ⟨_, g2, g3⟩ := Agree.exec (k := k) (b := Book.init) (c := Book.init) ⟨rfl, rfl, by simp [Book.init]⟩ hr hk
  have hil : i < b.vs.length := by rw [g2]; exact (List.getElem?_eq_some_iff.1 hv).1
  have hb := List.getElem?_eq_getElem hil
  rw [← (g3 i _ v hb hv).2 hvk]
  exact ob i r _ hri hb

/-- C97, one call: after any such history, an InplaceInsertNet into any held tree does not panic; the tree shows the networks shown
before and the new one; every other held tree shows what it showed before or that with the new network, the latter only if it has the
same origin. -/
theorem C97_inplace {f : Nat} (hf : 66 ≤ f) (ops : List (SOp (Op V))) (hl : KinLegal isIns ops) (n : Option IPNet) (x : V) :
    ∃ s b, OStore.init.exec (ipImpl true f) ops = .ok s ∧ KinRun Book.init ops b ∧ ∀ (i : Nat) r v, s.roots[i]? = some r → b.vs[i]? = some v →
      NetObserves f s.heap r v.2 ∧ ∃ h', (InplaceInsertNetP f r n x).run s.heap = .ok ((), h') ∧ NetObserves f h' r (.insertNet n x :: v.2) ∧
        ∀ (j : Nat) q u, s.roots[j]? = some q → b.vs[j]? = some u → NetObserves f s.heap q u.2 ∧
          (NetObserves f h' q u.2 ∨ (u.1 = v.1 ∧ NetObserves f h' q (.insertNet n x :: u.2))) := by
  have hI := ipImpl_kin (V := V) hf
  obtain ⟨s, b, home, e, hr, hi⟩ := kin_history hI isIns (fun _ _ h => ⟨rfl, h⟩) (fun _ _ => trivial) ops (g := fun _ => none) (kinv_init _ _) hl
  refine ⟨s, b, e, hr, fun i r v hri hv => ?_⟩
  obtain ⟨F, t, a1, _, a3⟩ := hi.get.2 i r v hri hv
  refine ⟨netObserves_of_rep hf a3 a1, ?_⟩
  obtain ⟨s', b', home', e', hs, hi'⟩ := kstep hI isIns (fun _ _ h => ⟨rfl, h⟩) (fun _ _ => trivial) hi (.inp i (.insertNet n x)) (by rintro _ _ e; cases e; trivial)
  have run : ∃ h', (InplaceInsertNetP f r n x).run s.heap = .ok ((), h') ∧ s' = ⟨h', s.roots.set i r⟩ := by
    simp only [OStore.step, hri] at e'
    have e2 : (ipImpl (V := V) true f).inp (.insertNet n x) r = (do InplaceInsertNetP f r n x; pure r) := rfl
    rw [e2, Prog.run_bind] at e'
    cases e1 : (InplaceInsertNetP f r n x).run s.heap with
    | error er => rw [e1] at e'; cases e'
    | ok z =>
      rw [e1] at e'
      cases e'
      exact ⟨_, rfl, rfl⟩
  obtain ⟨h', r1, rfl⟩ := run
  have hil : i < s.roots.length := (List.getElem?_eq_some_iff.1 hri).1
  have hsame : s.roots.set i r = s.roots := by
    apply List.ext_getElem?
    intro j
    rw [List.getElem?_set]
    by_cases ej : i = j
    · subst ej; simp [hil]; exact (List.getElem?_eq_some_iff.1 hri).2.symm
    · simp [ej]
  rw [hsame] at hi'
  have ob : ∀ (j : Nat) q u, s.roots[j]? = some q → b'.vs[j]? = some u → NetObserves f h' q u.2 := fun j q u hq hu => by
    obtain ⟨F, t, a1, _, a3⟩ := hi'.get.2 j q u hq hu
    exact netObserves_of_rep hf a3 a1
  cases hs with
  | inpOut e => rw [hv] at e; cases e
  | @inp _ _ _ v' g1 g2 g3 g4 g5 =>
    rw [hv] at g1; cases g1
    refine ⟨h', r1, ob i r _ hri g4, fun j q u hq hu => ⟨?_, ?_⟩⟩
    · obtain ⟨F, t, a1, _, a3⟩ := hi.get.2 j q u hq hu
      exact netObserves_of_rep hf a3 a1
    · rcases g5 j u hu with k | ⟨k, k'⟩
      · exact .inl (ob j q _ hq k)
      · exact .inr ⟨k, ob j q _ hq k'⟩

end

/-! ## Concrete cases -/

/-- Tree 1 = 2001::/64, tree 2 = tree 1 with 2001::1/128, tree 3 = tree 2 with 10.0.0.0/8, trees 4 and 5 of their
own; in-place calls on trees 3 and 2. -/
def ipShared : List (SOp (Op Nat)) :=
  [.fresh, .cow 0 (.insertNet (some (net6 0x20 0x01 0 0 64)) 1), .cow 1 (.insertNet (some (net6 0x20 0x01 0 1 128)) 2), .cow 2 (.insertNet (some (net4 10 0 0 0 8)) 3),
   .fresh, .inp 3 (.insertNet (some (net6 0x20 0x01 0 3 128)) 4), .inp 3 (.insertIP [10, 1, 1, 1] 5), .inp 2 (.insertNet (some (net6 0x20 0x01 0 0 16)) 6),
   .cow 4 (.insertNet (some (net6 0x20 0x01 0 0 64)) 7)]

/-- The sample meets the hypotheses of C97; the trees 4 and 5 are of an origin that is not modified in place. -/
example : KinLegal isIns ipShared ∧ Spares 1 Book.init ipShared := by
  refine ⟨⟨trivial, trivial, trivial, trivial⟩, ?_, ?_, ?_, ?_, ?_, ?_, ?_, ?_, ?_, trivial⟩
  all_goals
    rintro i o v h e
    cases h
    try (cases e; decide)

/-- The sample is not one that C42 and C45 cover. -/
example : ¬ (Book.init : Book (Op Nat)).LegalAll2 (fun _ _ => True) (ipImpl true 66).inpOk ipShared := by
  rintro ⟨_, _, _, _, _, h, _⟩
  exact (h _ rfl).2 2 _ (by decide) rfl rfl

/-- What the trees list: 2001::3/128, put into tree 3, shows in tree 2, from which tree 3 was derived; 10.1.1.1/32 and 2001::/16 show
only in the tree they were put into, and tree 1 keeps what it had. -/
example : ipAnswers true ipShared = some [some [], some [.user 1], some [.user 6, .user 1, .user 2, .user 4], some [.user 3, .user 5, .user 1, .user 2, .user 4], some [], some [.user 7]] := by
  decide +kernel

/-! ## dltree and domaintree: the other tree can lose what it held -/

/-- Tree 0 with the labels b, a, f, d put in place; tree 1 = tree 0 with the label 0. -/
def dlDerived : List (SOp (DL.Op Nat)) :=
  [.fresh, .inp 0 (.insert (txt "b") 2), .inp 0 (.insert (txt "a") 1), .inp 0 (.insert (txt "f") 6), .inp 0 (.insert (txt "d") 4), .cow 0 (.insert (txt "0") 0)]

/-- C97 (dltree): an InplaceInsert of the label e into tree 0 takes the label d out of tree 1, which was derived from tree 0 before. -/
theorem C97_dltree_loses_label :
    dlAnswers true dlDerived = some [some [(txt "A", 1), (txt "B", 2), (txt "D", 4), (txt "F", 6)], some [(txt "0", 0), (txt "A", 1), (txt "B", 2), (txt "D", 4), (txt "F", 6)]] ∧
    dlAnswers true (dlDerived ++ [.inp 0 (.insert (txt "e") 5)]) =
      some [some [(txt "A", 1), (txt "B", 2), (txt "D", 4), (txt "E", 5), (txt "F", 6)], some [(txt "0", 0), (txt "A", 1), (txt "B", 2), (txt "F", 6)]] := by
  constructor <;> decide +kernel

/-- Tree 0 with names put in place, two of them below d; tree 1 = tree 0 with the name 0. -/
def domDerived : List (SOp (DomTree.Op Nat)) :=
  [.fresh, .inp 0 (.inplace (nm "b") 2), .inp 0 (.inplace (nm "a") 1), .inp 0 (.inplace (nm "f") 6), .inp 0 (.inplace (nm "x.d") 4), .inp 0 (.inplace (nm "y.d") 7),
   .cow 0 (.insert (nm "0") 0)]

/-- C97 (domaintree): an InplaceInsert of the name e into tree 0 takes all names below d out of tree 1, which was derived from tree 0
before. -/
theorem C97_domaintree_loses_names :
    domAnswers true domDerived = some [some [(txt "a", 1), (txt "b", 2), (txt "x.d", 4), (txt "y.d", 7), (txt "f", 6)],
      some [(txt "0", 0), (txt "a", 1), (txt "b", 2), (txt "x.d", 4), (txt "y.d", 7), (txt "f", 6)]] ∧
    domAnswers true (domDerived ++ [.inp 0 (.inplace (nm "e") 5)]) =
      some [some [(txt "a", 1), (txt "b", 2), (txt "x.d", 4), (txt "y.d", 7), (txt "e", 5), (txt "f", 6)], some [(txt "0", 0), (txt "a", 1), (txt "b", 2), (txt "f", 6)]] := by
  constructor <;> decide +kernel

end Verif.Props
