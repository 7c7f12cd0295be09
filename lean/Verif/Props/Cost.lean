import Verif.IPHeap.Cost
import Verif.UIPHeap.Cost
import Verif.DomHeap.Cost
import Verif.Props.StrtreeHeap
import Verif.Props.NumtreeHeap
import Verif.Props.IptreeHeap
import Verif.Props.UIptreeHeap
import Verif.Props.DltreeHeap
import Verif.Props.DomaintreeHeap

/-!
# Property theorems on the cost of calls (C61, C62)

`Cost p h m n`: executed in memory `h`, the call `p` reads and writes at most `m` cells and allocates at most `n`.  A cell is one
node or tree object; an assignment to one field of an object counts as a read and a write.  The bound `f` on loops does not
matter: the numbers hold for every `f` large enough for the history to run.
-/

namespace Verif.Props
open Verif Verif.Heap Verif.Heap.Prog

/-! ## C61: prefix trees -/

section
open Verif.Num Verif.NumHeap
variable {w : Nat} {V : Type} [LawfulKeySize w] [Inhabited V]

/-- C61 for numtree: whatever calls came before and however many entries a tree has, one more call reads and writes at most a
number of nodes fixed by the key width. -/
theorem C61_numtree {f : Nat} (hf : w + 2 ≤ f) (ops : List (SOp (NumOp w V)))
    (hl : (Book.init : Book (NumOp w V)).LegalAll (numImpl f w V).inpOk ops) :
    ∃ s, Store.init.exec (numImpl f w V) ops = .ok s ∧ ∀ (i : Nat) r, s.roots[i]? = some r → ∀ (k : BitVec w) (bits : Int) (v : V),
      Cost (ExactMatchP f r k bits) s.heap (w + 3) 0 ∧ Cost (MatchP f r k bits) s.heap (w + 3) 0 ∧
      Cost (InsertP f r k bits v) s.heap (7 * (w + 2)) (w + 3) ∧ Cost (InplaceInsertP f r k bits v) s.heap (7 * (w + 2)) (2 * (w + 2)) ∧
      Cost (DeleteP f r k bits) s.heap (5 * (w + 2)) (w + 2) := by
  obtain ⟨s, e, _, h1, h2⟩ := history (numImpl_lawful (V := V) hf ops.length) ops (Nat.le_refl _) hl
  refine ⟨s, e, fun i r hr k bits v => ?_⟩
  have hil : i < (Book.init.exec ops).vs.length := by rw [← h1]; exact (List.getElem?_eq_some_iff.mp hr).1
  obtain ⟨A, rfl, a1, a2, a3⟩ := h2 i r _ hr (List.getElem?_eq_getElem hil)
  have hh : A.height < w + 2 := by
    have := run_height (w := w) (V := V) ((Book.init.exec ops).vs[i]).2
    rw [← show ATree.erase A = Num.run _ from a2, erase_height] at this
    omega
  exact ⟨cost_of (ExactMatchP_spec hh a1 k bits) (ExactMatchP_within ..) (ExactMatchP_more hf ..),
    cost_of (MatchP_spec hh a1 k bits) (MatchP_within ..) (MatchP_more hf ..),
    cost_of (InsertP_spec hh a1 k bits v) (InsertP_within ..) (InsertP_more hf ..),
    cost_of (InplaceInsertP_spec hh a1 a3 k bits v) (InplaceInsertP_within ..) (InplaceInsertP_more hf ..),
    cost_of (DeleteP_spec hh a1 k bits) (DeleteP_within ..) (DeleteP_more hf ..)⟩

/-- C61: listing a numtree tree reads fewer than twice as many nodes as it lists. -/
theorem C61_enumerate {f : Nat} (hf : w + 2 ≤ f) (ops : List (SOp (NumOp w V)))
    (hl : (Book.init : Book (NumOp w V)).LegalAll (numImpl f w V).inpOk ops) :
    ∃ s, Store.init.exec (numImpl f w V) ops = .ok s ∧ ∀ (i : Nat) r, s.roots[i]? = some r →
      ∃ l, answer (EnumerateP f r) s.heap = some l ∧ Cost (EnumerateP f r) s.heap (2 * l.length) 0 := by
  obtain ⟨s, e, _, h1, h2⟩ := history (numImpl_lawful (V := V) hf ops.length) ops (Nat.le_refl _) hl
  refine ⟨s, e, fun i r hr => ?_⟩
  have hil : i < (Book.init.exec ops).vs.length := by rw [← h1]; exact (List.getElem?_eq_some_iff.mp hr).1
  obtain ⟨A, rfl, a1, a2, a3⟩ := h2 i r _ hr (List.getElem?_eq_getElem hil)
  have a2 : ATree.erase A = Num.run ((Book.init.exec ops).vs[i]).2 := a2
  have hh : A.height < f := by
    have := run_height (w := w) (V := V) ((Book.init.exec ops).vs[i]).2
    rw [← a2, erase_height] at this
    omega
  refine ⟨_, answer_of_wp (EnumerateP_spec hh a1), ?_⟩
  unfold EnumerateP
  cases A with
  | nil => exact ⟨Nat.zero_le _, Nat.zero_le _⟩
  | node d x y =>
    simp only [ATree.ptr_node, reduceCtorEq, if_false]
    have hs := C08_size (w := w) (V := V) ((Book.init.exec ops).vs[i]).2 (by rw [← a2]; simp [ATree.erase])
    rw [← a2, DLHeap.erase_size] at hs
    exact (enumerateP_cost hh a1 (by simp)).mono (by omega) (Nat.le_refl _)
end

section
open Verif.IP Verif.IPHeap
variable {V : Type} [Inhabited V]

/-- C61 for iptree: the same for the calls on networks and addresses, with absolute numbers. -/
theorem C61_iptree (st : Bool) {f : Nat} (hf : 66 ≤ f) (ops : List (SOp (Op V)))
    (hl : (Book.init : Book (Op V)).LegalAll2 (fun _ _ => True) (ipImpl st f).inpOk ops) :
    ∃ s, OStore.init.exec (ipImpl st f) ops = .ok s ∧ ∀ (i : Nat) r, s.roots[i]? = some r → ∀ (n : Option IPNet) (v : V),
      Cost (GetByNetP f r n) s.heap 203 0 ∧ Cost (InsertNetP f r n v) s.heap 992 135 ∧ Cost (DeleteByNetP f r n) s.heap 860 134 ∧
      (r ≠ none → Cost (InplaceInsertNetP f r n v) s.heap 995 264) := by
  obtain ⟨s, e, _, h1, h2⟩ := obj_history (ipImpl_lawful (V := V) st hf ops.length) ops (Nat.le_refl _) hl
  refine ⟨s, e, fun i r hr n v => ?_⟩
  have hil : i < (Book.init.exec ops).vs.length := by rw [← h1]; exact (List.getElem?_eq_some_iff.mp hr).1
  obtain ⟨_, F, t, ht, hT⟩ := h2 i r _ hr (List.getElem?_eq_getElem hil)
  have hi : ∃ t', IP.InsertNet t n v = some t' := by
    obtain ⟨t', h'⟩ := run_total (V := V) st (.insertNet n v :: ((Book.init.exec ops).vs[i]).2)
    simp only [IP.run, ht, Option.bind_some] at h'
    exact ⟨t', h'⟩
  have hd : ∃ x, IP.DeleteByNet t n = some x := by
    obtain ⟨t', h'⟩ := run_total (V := V) st (.deleteByNet n :: ((Book.init.exec ops).vs[i]).2)
    simp only [IP.run, ht, Option.bind_some, IP.step, Option.map_eq_some_iff] at h'
    obtain ⟨x, hx, _⟩ := h'
    exact ⟨x, hx⟩
  obtain ⟨t', hi⟩ := hi
  obtain ⟨x, hd⟩ := hd
  refine ⟨cost_of (W := fun _ => False) (GetByNetP_spec (Nat.le_refl 66) hT n) (GetByNetP_within ..) (GetByNetP_more hf ..),
    cost_of (InsertNetP_spec (Nat.le_refl 66) hT hi) (InsertNetP_within ..) (InsertNetP_more hf ..),
    cost_of (DeleteByNetP_spec (Nat.le_refl 66) hT hd) (DeleteByNetP_within ..) (DeleteByNetP_more hf ..), fun hr => ?_⟩
  cases r with
  | none => exact absurd rfl hr
  | some a =>
    cases t with
    | none => cases hT.1
    | some t => exact cost_of (InplaceInsertNetP_spec (Nat.le_refl 66) hT hi) (InplaceInsertNetP_within ..) (InplaceInsertNetP_more hf ..)
end

section
open Verif.UIPHeap
variable {V : Type} [Inhabited V]

/-- C61 for the generated IP trees. -/
theorem C61_uint (st : Bool) {f : Nat} (hf : 66 ≤ f) (ops : List (SOp (IP.Op V)))
    (hl : (Book.init : Book (IP.Op V)).LegalAll2 (fun _ _ => True) (uipImpl st f).inpOk ops) :
    ∃ s, OStore.init.exec (uipImpl st f) ops = .ok s ∧ ∀ (i : Nat) r, s.roots[i]? = some r → ∀ (n : Option IPNet) (v : V),
      Cost (GetByNetP f r n) s.heap 270 0 ∧ Cost (InsertNetP f r n v) s.heap 992 135 ∧ Cost (DeleteByNetP f r n) s.heap 861 134 ∧
      (r ≠ none → Cost (InplaceInsertNetP f r n v) s.heap 995 264) := by
  obtain ⟨s, e, _, h1, h2⟩ := obj_history (uipImpl_lawful (V := V) st hf ops.length) ops (Nat.le_refl _) hl
  refine ⟨s, e, fun i r hr n v => ?_⟩
  have hil : i < (Book.init.exec ops).vs.length := by rw [← h1]; exact (List.getElem?_eq_some_iff.mp hr).1
  obtain ⟨_, F, t, hT, _⟩ := h2 i r _ hr (List.getElem?_eq_getElem hil)
  refine ⟨cost_of (W := fun _ => False) (GetByNetP_spec (Nat.le_refl 66) hT n) (GetByNetP_within ..) (GetByNetP_more hf ..),
    cost_of (InsertNetP_spec (Nat.le_refl 66) hT n v) (InsertNetP_within ..) (InsertNetP_more hf ..),
    cost_of (DeleteByNetP_spec (Nat.le_refl 66) hT n) (DeleteByNetP_within ..) (DeleteByNetP_more hf ..), fun hr => ?_⟩
  cases r with
  | none => exact absurd rfl hr
  | some a =>
    cases t with
    | none => cases hT.1
    | some t => exact cost_of (InplaceInsertNetP_spec (Nat.le_refl 66) hT n v) (InplaceInsertNetP_within ..) (InplaceInsertNetP_more hf ..)
end

/-! ## C62: red-black trees and domain trees -/

section
open Verif.RB Verif.RBHeap
variable {V : Type} [Inhabited V]

/-- C62 for strtree: on a tree listing `l`, with `b` twice the logarithm of one more than the number of pairs, a lookup reads at
most `b + 1` nodes and an update reads, writes and allocates a number of nodes linear in `b`; listing reads every node once. -/
theorem C62_strtree {cmp : Bytes → Bytes → Int} (hrefl : ∀ k, cmp k k = 0) (ops : List (SOp (KOp Bytes V))) {f : Nat} (hf : 2 * ops.length + 3 ≤ f)
    (hl : (Book.init : Book (KOp Bytes V)).LegalAll (rbImpl cmp f).inpOk ops) :
    ∃ s, Store.init.exec (rbImpl cmp f) ops = .ok s ∧ ∀ (i : Nat) r, s.roots[i]? = some r →
      ∃ l b, answer (enumerateP f r) s.heap = some l ∧ b = 2 * Nat.log2 (l.length + 1) ∧ ∀ (k : Bytes) (v : V),
        Cost (getP cmp f r k) s.heap (b + 1) 0 ∧ Cost (insertP cmp f r k v) s.heap (90 * b + 140) (6 * b + 10) ∧
        Cost (inplaceInsertP cmp f r k v) s.heap (84 * b + 131) (2 * b + 4) ∧ Cost (delP cmp f r k) s.heap (60 * b + 73) (3 * b + 4) ∧
        Cost (enumerateP f r) s.heap l.length 0 := by
  obtain ⟨s, e, _, hlen, h2⟩ := client_history (rbImpl_lawful (V := V) (n := ops.length) hrefl (f := f) (by omega)) ops (Nat.le_refl _) hl
  refine ⟨s, e, fun i r hr => ?_⟩
  have hil : i < (Book.init.exec ops).vs.length := by rw [← hlen]; exact (List.getElem?_eq_some_iff.mp hr).1
  obtain ⟨A, rfl, a1, a2, a3, a5⟩ := h2 i r _ hr (List.getElem?_eq_getElem hil)
  have a2 : ATree.erase A = (RB.run cmp ((Book.init.exec ops).vs[i]).2).getD .nil := a2
  obtain ⟨e1, hb, hsz⟩ := run_getD (V := V) hrefl ((Book.init.exec ops).vs[i]).2
  rw [← a2] at e1 hb hsz
  rw [RBHeap.erase_height] at hsz
  have hh := hb.height_le
  rw [RBHeap.erase_height] at hh
  refine ⟨_, _, answer_of_wp (enumerateP_spec (by omega) a1), rfl, fun k v => ?_⟩
  rw [RB.length_enumerate]
  generalize 2 * Nat.log2 ((ATree.erase A).size + 1) = b at hh
  have hi : ∃ T, RB.insert cmp (ATree.erase A) k v = some T := by
    obtain ⟨T, hT, _⟩ := run_balanced hrefl (.insert k v :: ((Book.init.exec ops).vs[i]).2)
    rw [RB.run, e1] at hT
    exact ⟨T, hT⟩
  obtain ⟨T, hT⟩ := hi
  refine ⟨Cost.mono (cost_of (getP_spec (Nat.lt_succ_self _) a1 k) (getP_within ..) (getP_more cmp (by omega) ..)) (by omega) (Nat.le_refl _),
    Cost.mono (cost_of (insertP_spec a1 a3 (Nat.le_refl _) hT (RBHeap.erase_height A)) (insertP_within ..) (insertP_more cmp (by omega) ..)) (by omega) (by omega),
    Cost.mono (cost_of (inplaceInsertP_spec a1 a3 (Nat.le_refl _) hT (RBHeap.erase_height A)) (inplaceInsertP_within ..) (inplaceInsertP_more cmp (by omega) ..)) (by omega) (by omega),
    Cost.mono (cost_of (delP_spec (cmp := cmp) a1 a3 (Nat.le_refl _) hb) (delP_within ..) (delP_more cmp (by omega) ..)) (by omega) (by omega),
    (enumerateP_cost (by omega) a1).mono (by rw [DLHeap.erase_size]; omega) (Nat.le_refl _)⟩
end

section
open Verif.Domain Verif.DL Verif.DLHeap
variable {V : Type} [Inhabited V]

/-- C62 for dltree. -/
theorem C62_dltree (st : Bool) (ops : List (SOp (DL.Op V))) {f : Nat} (hf : 2 * ops.length + 3 ≤ f)
    (hl : (Book.init : Book (DL.Op V)).LegalAll2 dlCow (dlInp st) ops) :
    ∃ s, OStore.init.exec (dlImpl st f) ops = .ok s ∧ ∀ (i : Nat) r, s.roots[i]? = some r →
      ∃ l b, answer (RawEnumerateP lm f r) s.heap = some l ∧ b = 2 * Nat.log2 (l.length + 1) ∧ ∀ (k : Bytes) (v : V),
        Cost (RawGetP lm f r k) s.heap (b + 2) 0 ∧ Cost (RawInsertP lm f r k v) s.heap (90 * b + 141) (6 * b + 11) ∧
        (r ≠ none → Cost (RawInplaceInsertP lm f r k v) s.heap (84 * b + 134) (2 * b + 4)) ∧
        Cost (RawDeleteP lm f r k) s.heap (60 * b + 74) (3 * b + 5) := by
  obtain ⟨s, e, _, h1, h2⟩ := obj_history (dlImpl_lawful (V := V) st hf) ops (Nat.le_refl _) hl
  refine ⟨s, e, fun i r hr => ?_⟩
  have hil : i < (Book.init.exec ops).vs.length := by rw [← h1]; exact (List.getElem?_eq_some_iff.mp hr).1
  obtain ⟨hn, F, _, A, hL, _, _⟩ := h2 i r _ hr (List.getElem?_eq_getElem hil)
  have hsz := hL.size
  refine ⟨_, _, answer_of_wp (W := fun _ => False) (RawEnumerateP_spec hL (tall_lt (by omega))), rfl, fun k v => ?_⟩
  have hL : LRep lm A.size s.heap r A := { hL with size := Nat.le_refl _ }
  rw [RB.length_enumerate, erase_size]
  have hb := tall_log A.size
  have hb' := tall_le A.size
  generalize 2 * Nat.log2 (A.size + 1) = b at hb
  refine ⟨Cost.mono (cost_of (W := fun _ => False) (RawGetP_spec hL (Nat.lt_succ_self _) k) (RawGetP_within ..) (RawGetP_more (by omega) ..)) (by omega) (Nat.le_refl _),
    Cost.mono (cost_of (RawInsertP_spec hL (Nat.le_refl _) k v) (RawInsertP_within ..) (RawInsertP_more (by omega) ..)) (by omega) (by omega), fun hr => ?_,
    Cost.mono (cost_of (RawDeleteP_spec hL (Nat.le_refl _) k) (RawDeleteP_within ..) (RawDeleteP_more (by omega) ..)) (by omega) (by omega)⟩
  cases r with
  | none => exact absurd rfl hr
  | some a =>
    exact Cost.mono (cost_of (RawInplaceInsertP_spec hL (Nat.le_refl _) k v) (RawInplaceInsertP_within ..) (RawInplaceInsertP_more (by omega) ..)) (by omega) (by omega)
end

section
open Verif.Domain Verif.DomTree Verif.DomHeap
variable {V : Type}

/-- C62 for domaintree: on a tree listing `l`, with `b` twice the logarithm of one more than the number of listed domains, a call with
a name of `ls.length` labels costs at most a number linear in `b` per label.  Calls known to panic (`C34_false`, `C35_delete_partial`) are
excluded. -/
theorem C62_domaintree (st : Bool) (ops : List (SOp (Op V))) {f : Nat} (hf : 2 * ops.length + 3 ≤ f) (hk : 128 ≤ f)
    (hl : (Book.init : Book (Op V)).LegalAll2 cowOk (inpOk st) ops) :
    ∃ s, OStore.init.exec (domImpl st f) ops = .ok s ∧ ∀ (i : Nat) r c, s.roots[i]? = some r → (Book.init.exec ops).vs[i]? = some c →
      ∃ l b, answer (EnumerateTreeP f r) s.heap = some l ∧ b = 2 * Nat.log2 (l.length + 1) ∧ ∀ d ls, Parsed d ls →
        Cost (GetP f r d) s.heap (ls.length * (b + 4)) 0 ∧
        (∀ v, Cost (InsertP f r d v) s.heap (ls.length * (92 * b + 150) + 3) (ls.length * (6 * b + 12) + 1)) ∧
        (∀ v, inpOk st c.2 (.inplace d v) → Cost (InplaceInsertP f r d v) s.heap (ls.length * (86 * b + 140) + 5) (ls.length * (2 * b + 6) + 1)) ∧
        (cowOk c.2 (.delete d) → Cost (DeleteP f r d) s.heap (ls.length * (122 * b + 205) + 3) (ls.length * (6 * b + 12) + 1)) ∧
        (cowOk c.2 (.deleteSub d) → Cost (DeleteSubdomainsP f r d) s.heap (ls.length * (122 * b + 205) + 3) (ls.length * (6 * b + 12) + 1)) := by
  obtain ⟨s, e, _, h1, h2⟩ := obj_history (domImpl_lawful (V := V) st hf) ops (Nat.le_refl _) hl
  refine ⟨s, e, fun i r c hr hc => ?_⟩
  obtain ⟨hn, F, h0, n, hrun, hN⟩ := h2 i r c hr hc
  obtain ⟨hw, hv⟩ := run_stored h0 hrun
  obtain ⟨xs, hx, es, hes, _, hmem⟩ := lists_of_run h0 hrun
  have hlen : es.length = xs.length := by simpa using (congrArg List.length hes).symm
  refine ⟨xs, _, answer_of_wp (W := fun _ => False) (EnumerateTreeP_spec (DLHeap.tall_lt (by omega)) hk hN hx), rfl, fun d ls hd => ?_⟩
  have hN' : ∃ m, m ≤ ops.length ∧ m ≤ xs.length ∧ PRep m s.heap 128 r n F := by
    rcases Nat.le_total c.2.length xs.length with hle | hle
    · exact ⟨_, by omega, hle, hN⟩
    · exact ⟨_, by omega, Nat.le_refl _, hN.shrink hw (fun q v h => (hmem q v).2 (by rw [← hv]; exact h)) (by omega)⟩
  obtain ⟨m, hm1, hm2, hN'⟩ := hN'
  have hb : DLHeap.tall m ≤ 2 * Nat.log2 (xs.length + 1) := Nat.le_trans (DLHeap.tall_mono hm2) (DLHeap.tall_log _)
  have hb' := DLHeap.tall_le m
  generalize 2 * Nat.log2 (xs.length + 1) = b at hb
  have hh := hd.holds
  have hc' := hh.count
  have hL : ls.length < 128 := by omega
  have le : ∀ {x y : Nat} (z : Nat), x ≤ y → ls.length * x + z ≤ ls.length * y + z := fun z h => Nat.add_le_add_right (Nat.mul_le_mul_left _ h) z
  refine ⟨?_, fun v => ?_, fun v ho => ?_, fun ho => ?_, fun ho => ?_⟩
  · exact Cost.mono (cost_of (W := fun _ => False) (GetP_spec (Nat.lt_succ_self _) hN' hh hL) (GetP_within _ _ hh) (GetP_more (by omega) ..)) (Nat.mul_le_mul_left _ (by omega)) (Nat.le_refl _)
  · obtain ⟨n1, hi, _⟩ := insert_api hw hh v
    exact Cost.mono (cost_of (InsertP_spec (Nat.le_refl _) hN' hh hL v hi) (InsertP_within _ _ hh v) (InsertP_more (by omega) ..)) (le 3 (by omega)) (le 1 (by omega))
  · obtain ⟨n1, hi⟩ := Option.ne_none_iff_exists'.1 ((inplace_iff h0 hrun ho.1).2 ho)
    exact Cost.mono (cost_of (InplaceInsertP_spec (Nat.le_refl _) hN' hh hL v hi) (InplaceInsertP_within _ _ hh v) (InplaceInsertP_more (by omega) ..)) (le 5 (by omega)) (le 1 (by omega))
  · obtain ⟨n1, hi⟩ := cow_some h0 hrun ho
    simp only [DomTree.step, Option.map_eq_some_iff] at hi
    obtain ⟨⟨t1, fl⟩, hi, _⟩ := hi
    exact Cost.mono (cost_of (DeleteP_spec (Nat.le_refl _) hN' hh hL hi) (DeleteP_within _ _ hh) (DeleteP_more (by omega) ..)) (le 3 (by omega)) (le 1 (by omega))
  · obtain ⟨n1, hi⟩ := cow_some h0 hrun ho
    simp only [DomTree.step, Option.map_eq_some_iff] at hi
    obtain ⟨⟨t1, fl⟩, hi, _⟩ := hi
    exact Cost.mono (cost_of (DeleteSubdomainsP_spec (Nat.le_refl _) hN' hh hL hi) (DeleteSubdomainsP_within _ _ hh) (DeleteSubdomainsP_more (by omega) ..)) (le 3 (by omega)) (le 1 (by omega))
end

/-! ## The sample histories

Actual counts on the last tree of the samples of the other files, beside the theorems' hypotheses met there. -/

/-- Accesses and allocations of a call. -/
def costs {D α : Type} (h : Heap D) (p : Prog D α) : Nat × Nat := (p.accesses h, p.allocs h)

section
open Verif.NumHeap

example := C61_numtree (w := 32) (V := Nat) (by decide) heapSample heapSample_legal
example := C61_enumerate (w := 32) (V := Nat) (by decide) heapSample heapSample_legal

example : (match Store.init.exec (numImpl 34 32 Nat) heapSample with
    | .ok s => s.roots.drop 5 |>.map fun r => [costs s.heap (ExactMatchP 34 r 0x0A010000#32 16), costs s.heap (InsertP 34 r 0x0A030000#32 16 1),
        costs s.heap (InplaceInsertP 34 r 0x0A030000#32 16 1), costs s.heap (DeleteP 34 r 0x0A020000#32 16)]
    | .error _ => []) = [[(3, 0), (13, 3), (8, 2), (2, 0)]] := by decide +kernel
end

section
open Verif.IPHeap

example := C61_iptree (V := Nat) true (Nat.le_refl 66) ipSample ipSample_legal

example : (match OStore.init.exec (ipImpl true 66) ipSample with
    | .ok s => s.roots.drop 6 |>.map fun r => [costs s.heap (GetByNetP 66 r (some (net6 0x20 0x01 0 1 128))),
        costs s.heap (InsertNetP 66 r (some (net6 0x20 0x01 0 2 128)) 1), costs s.heap (DeleteByNetP 66 r (some (net6 0x20 0x01 0 0 64)))]
    | .error _ => []) = [[(6, 0), (20, 5), (5, 1)]] := by decide +kernel
end

section
open Verif.UIPHeap

example := C61_uint (V := Nat) true (Nat.le_refl 66) uipSample uipSample_legal

example : (match OStore.init.exec (uipImpl true 66) uipSample with
    | .ok s => s.roots.drop 6 |>.map fun r => [costs s.heap (GetByNetP 66 r (some (net6 0x20 0x01 0 1 128))),
        costs s.heap (InsertNetP 66 r (some (net6 0x20 0x01 0 2 128)) 1), costs s.heap (DeleteByNetP 66 r (some (net6 0x20 0x01 0 0 64)))]
    | .error _ => []) = [[(6, 0), (20, 5), (6, 1)]] := by decide +kernel
end

section
open Verif.RBHeap

example := C62_strtree (cmp := compareBytes) (V := Nat) (fun x => compareBytes_lawful.refl x) kvSample (f := 33) (by decide) kvSample_legal

example : (match Store.init.exec (rbImpl compareBytes 33) kvSample with
    | .ok s => s.roots.drop 6 |>.take 1 |>.map fun r => [costs s.heap (getP compareBytes 33 r [5]), costs s.heap (insertP compareBytes 33 r [7] 1),
        costs s.heap (inplaceInsertP compareBytes 33 r [7] 1), costs s.heap (delP compareBytes 33 r [2]), costs s.heap (enumerateP 33 r)]
    | .error _ => []) = [[(3, 0), (57, 6), (45, 2), (60, 5), (6, 0)]] := by decide +kernel
end

section
open Verif.DLHeap

example := C62_dltree (V := Nat) true dlSample (f := 30) (by decide) dlSample_legal

example : (match OStore.init.exec (dlImpl true 30) dlSample with
    | .ok s => s.roots.drop 4 |>.take 1 |>.map fun r => [costs s.heap (RawGetP lm 30 r [66]), costs s.heap (RawInsertP lm 30 r [67] 1),
        costs s.heap (RawInplaceInsertP lm 30 r [67] 1), costs s.heap (RawDeleteP lm 30 r [65])]
    | .error _ => []) = [[(2, 0), (35, 6), (33, 2), (32, 4)]] := by decide +kernel
end

section
open Verif.DomHeap

example := C62_domaintree (V := Nat) true domSample (f := 128) (by decide) (Nat.le_refl _) domSample_legal

example : (match OStore.init.exec (domImpl true 128) domSample with
    | .ok s => s.roots.drop 6 |>.map fun r => [costs s.heap (GetP 128 r (nm "www.example.com")), costs s.heap (InsertP 128 r (nm "a.example.com") 1),
        costs s.heap (InplaceInsertP 128 r (nm "a.example.com") 1), costs s.heap (DeleteP 128 r (nm "www.example.com")), costs s.heap (DeleteSubdomainsP 128 r (nm "com"))]
    | .error _ => []) = [[(12, 0), (68, 14), (31, 4), (73, 12), (50, 5)]] := by decide +kernel
end

end Verif.Props
