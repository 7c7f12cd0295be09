import Verif.DomHeap.Confine
import Verif.Props.StrtreeHeap
import Verif.Props.DltreeHeap
import Verif.Props.DomaintreeHeap
import Verif.Props.SharedStrtree

/-!
# Property theorems for red-black trees of an origin nobody misuses, while trees of other origins are damaged (C100)

The histories are those of C13, C58 and C33.  `good` is a set of starting trees, named by their number in the order they were started.  `LegalAllR good` asks
of the calls on trees that come from these starting trees what C13, C58 and C33 ask of all calls: that they are covered, and that in-place calls are made
with exclusive access.  Of the calls on other trees it asks nothing: InplaceInsert may be called on trees that share nodes, so that (C99) trees lose or repeat
keys, and their nodes may form a cycle.  A history lists for every call whether it returned (`true`) or panicked and the caller recovered (`false`); a panicking call
leaves the memory as it is at that moment and the trees held are the same as before.
-/

namespace Verif.Props
open Verif Verif.Heap Verif.RB Verif.RBHeap
variable {V : Type}

/-- C100 (strtree): the trees of the origins in `good` show exactly the entries their own chains of calls left. -/
theorem C100_strtree [Inhabited V] {cmp : Bytes → Bytes → Int} (hc : LawfulCmp cmp) (good : Nat → Prop) (ops : List (SOp (KOp Bytes V) × Bool)) {f : Nat} (hf : 2 * ops.length + 3 ≤ f)
    (hl : (Book.init : Book (KOp Bytes V)).LegalAllR good (fun _ _ => True) (fun _ o => (rbImpl cmp f).inpOk o) ops) {s : OStore (RD Bytes V) Ptr}
    (he : OStore.init.execR (rbImpl cmp f).toO ops = some s) :
    s.roots.length = (Book.init.exec (returned ops)).vs.length ∧
      ∀ (i : Nat) r v, s.roots[i]? = some r → (Book.init.exec (returned ops)).vs[i]? = some v → good v.1 → KVObserves cmp f s.heap r v.2 := by
  obtain ⟨h1, h2⟩ := recovered_history (Impl.toO_lawful (rbImpl_lawful (V := V) hc.refl hf)) (rbConfined cmp f) good ops (Nat.le_refl _) hl he
  refine ⟨h1, fun i r v hr hv hg => ?_⟩
  obtain ⟨hn, F, A, rfl, a1, a2, _⟩ := h2 i r v hr hv hg
  exact kvObserves_of_rep hc (by omega) hn a1 a2

/-- C100 (strtree): and a further call on one of these trees returns. -/
theorem C100_strtree_returns [Inhabited V] {cmp : Bytes → Bytes → Int} (hc : LawfulCmp cmp) (good : Nat → Prop) (ops : List (SOp (KOp Bytes V) × Bool)) {f : Nat}
    (hf : 2 * ops.length + 5 ≤ f) (hl : (Book.init : Book (KOp Bytes V)).LegalAllR good (fun _ _ => True) (fun _ o => (rbImpl cmp f).inpOk o) ops)
    {s : OStore (RD Bytes V) Ptr} (he : OStore.init.execR (rbImpl cmp f).toO ops = some s) (op : SOp (KOp Bytes V))
    (ho : (Book.init.exec (returned ops)).LegalOn good (fun _ _ => True) (fun _ o => (rbImpl cmp f).inpOk o) op)
    (hg : ∀ i o, op = .cow i o ∨ op = .inp i o → ∀ v, (Book.init.exec (returned ops)).vs[i]? = some v → good v.1) : ∃ s', s.step (rbImpl cmp f).toO op = .ok s' :=
  recovered_returns (Impl.toO_lawful (rbImpl_lawful (V := V) (n := ops.length + 1) hc.refl (by omega))) (rbConfined cmp f) good ops (Nat.lt_succ_self _) hl he op ho hg

/-- C100 (dltree): the trees of the origins in `good` show exactly the labels their own chains of calls left. -/
theorem C100_dltree [Inhabited V] (st : Bool) (good : Nat → Prop) (ops : List (SOp (DL.Op V) × Bool)) {f : Nat} (hf : 2 * ops.length + 3 ≤ f)
    (hl : (Book.init : Book (DL.Op V)).LegalAllR good DLHeap.dlCow (DLHeap.dlInp st) ops) {s : OStore (DLHeap.LD V) Ptr}
    (he : OStore.init.execR (DLHeap.dlImpl st f) ops = some s) :
    s.roots.length = (Book.init.exec (returned ops)).vs.length ∧
      ∀ (i : Nat) r v, s.roots[i]? = some r → (Book.init.exec (returned ops)).vs[i]? = some v → good v.1 → DLShows f s.heap r v.2 := by
  obtain ⟨h1, h2⟩ := recovered_history (DLHeap.dlImpl_lawful (V := V) st hf) (DLHeap.dlConfined st f) good ops (Nat.le_refl _) hl he
  refine ⟨h1, fun i r v hr hv hg => ?_⟩
  obtain ⟨hn, F, ho⟩ := h2 i r v hr hv hg
  exact dlShows_of_obj (by omega) ho

/-- C100 (dltree): and a further call on one of these trees returns. -/
theorem C100_dltree_returns [Inhabited V] (st : Bool) (good : Nat → Prop) (ops : List (SOp (DL.Op V) × Bool)) {f : Nat} (hf : 2 * ops.length + 5 ≤ f)
    (hl : (Book.init : Book (DL.Op V)).LegalAllR good DLHeap.dlCow (DLHeap.dlInp st) ops) {s : OStore (DLHeap.LD V) Ptr}
    (he : OStore.init.execR (DLHeap.dlImpl st f) ops = some s) (op : SOp (DL.Op V)) (ho : (Book.init.exec (returned ops)).LegalOn good DLHeap.dlCow (DLHeap.dlInp st) op)
    (hg : ∀ i o, op = .cow i o ∨ op = .inp i o → ∀ v, (Book.init.exec (returned ops)).vs[i]? = some v → good v.1) : ∃ s', s.step (DLHeap.dlImpl st f) op = .ok s' :=
  recovered_returns (DLHeap.dlImpl_lawful (V := V) (n := ops.length + 1) st (by omega)) (DLHeap.dlConfined st f) good ops (Nat.lt_succ_self _) hl he op ho hg

/-- C100 (domaintree): the trees of the origins in `good` show exactly the domains their own chains of calls left. -/
theorem C100_domaintree (st : Bool) (good : Nat → Prop) (ops : List (SOp (DomTree.Op V) × Bool)) {f : Nat} (hf : 2 * ops.length + 3 ≤ f) (hk : 128 ≤ f)
    (hl : (Book.init : Book (DomTree.Op V)).LegalAllR good DomHeap.cowOk (DomHeap.inpOk st) ops) {s : OStore (DomHeap.DD V) Ptr}
    (he : OStore.init.execR (DomHeap.domImpl st f) ops = some s) :
    s.roots.length = (Book.init.exec (returned ops)).vs.length ∧
      ∀ (i : Nat) r v, s.roots[i]? = some r → (Book.init.exec (returned ops)).vs[i]? = some v → good v.1 → DomObserves f s.heap r v.2 := by
  obtain ⟨h1, h2⟩ := recovered_history (DomHeap.domImpl_lawful (V := V) st hf) (DomHeap.domConfined st f) good ops (Nat.le_refl _) hl he
  refine ⟨h1, fun i r v hr hv hg => ?_⟩
  obtain ⟨hn, F, ho⟩ := h2 i r v hr hv hg
  exact domObserves_of_rep (by omega) hk ho

/-- C100 (domaintree): and a further call on one of these trees returns. -/
theorem C100_domaintree_returns (st : Bool) (good : Nat → Prop) (ops : List (SOp (DomTree.Op V) × Bool)) {f : Nat} (hf : 2 * ops.length + 5 ≤ f)
    (hl : (Book.init : Book (DomTree.Op V)).LegalAllR good DomHeap.cowOk (DomHeap.inpOk st) ops) {s : OStore (DomHeap.DD V) Ptr}
    (he : OStore.init.execR (DomHeap.domImpl st f) ops = some s) (op : SOp (DomTree.Op V)) (ho : (Book.init.exec (returned ops)).LegalOn good DomHeap.cowOk (DomHeap.inpOk st) op)
    (hg : ∀ i o, op = .cow i o ∨ op = .inp i o → ∀ v, (Book.init.exec (returned ops)).vs[i]? = some v → good v.1) : ∃ s', s.step (DomHeap.domImpl st f) op = .ok s' :=
  recovered_returns (DomHeap.domImpl_lawful (V := V) (n := ops.length + 1) st (by omega)) (DomHeap.domConfined st f) good ops (Nat.lt_succ_self _) hl he op ho hg

/-! ## A history that meets the hypotheses: the nodes of trees 0 and 2 come to form a cycle (`C99_never_returns`), tree 1 is used with care -/

def strQuarantine : List (SOp (KOp Bytes Nat) × Bool) :=
  ([.fresh, .fresh, .inp 0 (.insert [7] 1), .inp 0 (.insert [3] 2), .inp 1 (.insert [3] 50), .inp 0 (.insert [8] 3), .inp 0 (.insert [2] 4), .inp 0 (.insert [5] 5),
   .inp 0 (.insert [6] 6), .inp 0 (.insert [1] 7), .cow 0 (.insert [3] 8), .inp 2 (.insert [0] 9), .inp 1 (.insert [2] 51), .inp 2 (.insert [4] 10), .inp 0 (.insert [1] 11),
   .inp 0 (.insert [6] 12), .inp 2 (.insert [4] 13), .cow 1 (.delete [3]), .cow 1 (.insert [9] 52)] : List (SOp (KOp Bytes Nat))).map (·, true)

theorem strQuarantine_legal : (Book.init : Book (KOp Bytes Nat)).LegalAllR (· = 1) (fun _ _ => True) (fun _ o => (rbImpl compareBytes 41).inpOk o) strQuarantine := by
  simp only [strQuarantine, List.map_cons, List.map_nil, Book.LegalAllR, Book.LegalOn, Book.step, Book.init, rbImpl]
  simp
  constructor
  · rintro (_ | _ | j) a b hj h <;> simp at hj h
    omega
  · rintro (_ | _ | _ | j) a b hj h <;> simp at hj h
    · omega
    · omega

/-- The calls of the history return; tree 0 cannot be searched for [2, 0] in 100 steps any more; trees 1, 3 and 4 list what their calls left. -/
def strQuarantineCheck : Bool :=
  match OStore.init.execR (rbImpl compareBytes 41).toO strQuarantine with
  | .none => false
  | .some s => decide ((s.roots.take 1).map (fun r => answer (getP compareBytes 100 r [2, 0]) s.heap) = [none]) &&
      decide ([1, 3, 4].map (fun i => (s.roots[i]?).bind fun r => answer (enumerateP 41 r) s.heap) =
        [some [([2], 51), ([3], 50)], some [([2], 51)], some [([2], 51), ([3], 50), ([9], 52)]])

example : strQuarantineCheck = true := by decide +kernel

/-! The same for dltree and domaintree: the history of `C99_dltree_panics` and `C99_domaintree_panics` with the panic, and calls on a tree of another origin before and after. -/

def dlQuarantine : List (SOp (DL.Op Nat) × Bool) :=
  ([.fresh, .fresh, .inp 0 (.insert (txt "b") 1), .inp 0 (.insert (txt "c") 2), .inp 1 (.rawInsert (txt "C") 50), .cow 0 (.insert (txt "b") 3), .inp 0 (.insert (txt "d") 4),
   .inp 2 (.insert (txt "f") 5), .inp 2 (.insert (txt "e") 6)] : List (SOp (DL.Op Nat))).map (·, true) ++ [(.cow 0 (.insert (txt "f") 7), false), (.cow 1 (.rawInsert (txt "F") 51), true)]

theorem dlQuarantine_legal : (Book.init : Book (DL.Op Nat)).LegalAllR (· = 1) DLHeap.dlCow (DLHeap.dlInp true) dlQuarantine := by
  simp only [dlQuarantine, List.map_cons, List.map_nil, List.cons_append, List.nil_append, Book.LegalAllR, Book.LegalOn, Book.step, Book.init]
  simp
  refine ⟨⟨⟨⟨_, .rawInsert⟩, trivial, .inl rfl⟩, ?_⟩, ⟨_, .rawInsert⟩⟩
  rintro (_ | _ | j) a b hj h <;> simp at hj h
  omega

example : (match OStore.init.execR (DLHeap.dlImpl true 30) dlQuarantine with
    | .some s => s.roots.map fun t => answer (DLHeap.RawEnumerateP DLHeap.lm 30 t) s.heap
    | .none => []) = [some [(txt "B", 1), (txt "C", 2), (txt "D", 4), (txt "E", 6), (txt "F", 5)], some [(txt "C", 50)],
      some [(txt "B", 3), (txt "B", 1), (txt "C", 2), (txt "D", 4), (txt "E", 6), (txt "F", 5)], some [(txt "C", 50), (txt "F", 51)]] := by decide +kernel

def domQuarantine : List (SOp (DomTree.Op Nat) × Bool) :=
  ([.fresh, .fresh, .inp 0 (.inplace (nm "b") 1), .inp 0 (.inplace (nm "c") 2), .inp 1 (.inplace (nm "www.c") 50), .cow 0 (.insert (nm "b") 3), .inp 0 (.inplace (nm "d") 4),
   .inp 2 (.inplace (nm "f") 5), .inp 2 (.inplace (nm "e") 6)] : List (SOp (DomTree.Op Nat))).map (·, true) ++ [(.cow 0 (.insert (nm "f") 7), false), (.cow 1 (.insert (nm "f") 51), true)]

theorem domQuarantine_legal : (Book.init : Book (DomTree.Op Nat)).LegalAllR (· = 1) DomHeap.cowOk (DomHeap.inpOk true) domQuarantine := by
  simp only [domQuarantine, List.map_cons, List.map_nil, List.cons_append, List.nil_append, Book.LegalAllR, Book.LegalOn, Book.step, Book.init]
  simp
  refine ⟨⟨C34_covered_partial _ (fun o ho => by cases ho) _ _ ⟨txt "www.c", by decide +kernel⟩, ?_⟩, ⟨txt "f", by decide +kernel⟩, trivial⟩
  rintro (_ | _ | j) a b hj h <;> simp at hj h
  omega

example : (match OStore.init.execR (DomHeap.domImpl true 128) domQuarantine with
    | .some s => s.roots.map fun t => answer (DomHeap.EnumerateTreeP 128 t) s.heap
    | .none => []) = [some [(txt "b", 1), (txt "c", 2), (txt "d", 4), (txt "e", 6), (txt "f", 5)], some [(txt "www.c", 50)],
      some [(txt "b", 3), (txt "b", 1), (txt "c", 2), (txt "d", 4), (txt "e", 6), (txt "f", 5)], some [(txt "www.c", 50), (txt "f", 51)]] := by decide +kernel

end Verif.Props
