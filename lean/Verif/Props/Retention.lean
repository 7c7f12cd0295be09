import Verif.IPHeap.Held
import Verif.UIPHeap.Held
import Verif.DomHeap.Held
import Verif.Props.NumtreeHeap
import Verif.Props.StrtreeHeap
import Verif.Props.DltreeHeap
import Verif.Props.IptreeHeap
import Verif.Props.UIptreeHeap
import Verif.Props.DomaintreeHeap

/-!
# Property theorems on what a tree keeps in memory (C78)

`Held h out r a`: the cell at `a` can be reached from the pointer `r` through child pointers and the pointers inside payloads, so
the garbage collector has to keep it.  `Keeps h out r k P`: at most `k` cells can be reached from `r`, and all of them have payloads
with `P`.  Histories are those of C05, C13, C58, C45, C59 and C33: any number of trees, derived from each other by Insert and
Delete, in-place inserts and forgotten trees.  Each bound is in terms of what `Enumerate` lists for that tree now, so neither the
length of the history nor deleted or overwritten values count.
-/

namespace Verif.Props
open Verif Verif.Heap

section Num
open Verif.Num Verif.NumHeap
variable {w : Nat} {V : Type} [LawfulKeySize w] [Inhabited V]

/-- C78, numtree: at most two cells per listed entry; a cell that is not listed holds no value. -/
theorem C78_numtree {f : Nat} (hf : w + 2 ≤ f) (ops : List (SOp (NumOp w V)))
    (hl : (Book.init : Book (NumOp w V)).LegalAll (numImpl f w V).inpOk ops) :
    ∃ s, Store.init.exec (numImpl f w V) ops = .ok s ∧ s.roots.length = (Book.init.exec ops).vs.length ∧
      ∀ r ∈ s.roots, ∃ l, answer (EnumerateP f r) s.heap = some l ∧ Keeps s.heap (fun _ => []) r (2 * l.length) fun d => d ∈ l ∨ d.leaf = false ∧ d.value = default := by
  obtain ⟨s, e, _, h1, h2⟩ := history (numImpl_lawful (V := V) hf ops.length) ops (Nat.le_refl _) hl
  refine ⟨s, e, h1, fun r hr => ?_⟩
  obtain ⟨i, hi, rfl⟩ := List.getElem_of_mem hr
  obtain ⟨A, ha, a1, a2, _⟩ := h2 i _ _ (List.getElem?_eq_getElem hi) (List.getElem?_eq_getElem (h1 ▸ hi))
  rw [ha]
  have hE : ATree.erase A = Num.run ((Book.init.exec ops).vs[i]'(h1 ▸ hi)).2 := a2
  have hh : A.height < f := by
    have := run_height (w := w) (V := V) ((Book.init.exec ops).vs[i]'(h1 ▸ hi)).2
    have e := erase_height A
    rw [hE] at e; omega
  obtain ⟨w1, _, w3⟩ := run_wf ((Book.init.exec ops).vs[i]'(h1 ▸ hi)).2
  rw [← hE] at w1 w3
  refine ⟨_, answer_of_wp (EnumerateP_spec hh a1), ?_⟩
  obtain ⟨L, k1, k2⟩ := keeps_tree a1
  refine ⟨L, ?_, fun a ha => ⟨(k2 a ha).1, fun c hc => ?_⟩⟩
  · have e : Num.Enumerate (ATree.erase A) = Num.enumerate (ATree.erase A) := rfl
    rw [e]
    by_cases hn : ATree.erase A = .nil
    · rw [hn] at k1 ⊢
      exact Nat.le_trans k1 (Nat.zero_le _)
    · have := w1.size_lt hn
      omega
  · have hm := (k2 a ha).2 c hc
    cases hlf : c.d.leaf
    · exact .inr ⟨hlf, w3 _ hm hlf⟩
    · exact .inl (enumerate_of_leaf hm hlf)

end Num

section Str
open Verif.RB Verif.RBHeap
variable {V : Type} [Inhabited V]

/-- C78, strtree: exactly the cells of the listed entries. -/
theorem C78_strtree {cmp : Bytes → Bytes → Int} (hrefl : ∀ k, cmp k k = 0) (ops : List (SOp (KOp Bytes V))) {f : Nat} (hf : 2 * ops.length + 3 ≤ f)
    (hl : (Book.init : Book (KOp Bytes V)).LegalAll (rbImpl cmp f).inpOk ops) :
    ∃ s, Store.init.exec (rbImpl cmp f) ops = .ok s ∧ s.roots.length = (Book.init.exec ops).vs.length ∧
      ∀ r ∈ s.roots, ∃ l, answer (enumerateP f r) s.heap = some l ∧ Keeps s.heap (fun _ => []) r l.length fun d => (d.key, d.value) ∈ l := by
  obtain ⟨s, e, _, h1, h2⟩ := client_history (rbImpl_lawful (V := V) hrefl hf) ops (Nat.le_refl _) hl
  refine ⟨s, e, h1, fun r hr => ?_⟩
  obtain ⟨i, hi, rfl⟩ := List.getElem_of_mem hr
  obtain ⟨A, ha, a1, a2, _, a5⟩ := h2 i _ _ (List.getElem?_eq_getElem hi) (List.getElem?_eq_getElem (h1 ▸ hi))
  rw [ha]
  have hh := rb_fuel hrefl (f := f) (by omega) a5 a2
  refine ⟨_, answer_of_wp (enumerateP_spec hh a1), ?_⟩
  obtain ⟨L, k1, k2⟩ := keeps_tree a1
  refine ⟨L, by rw [RB.enumerate_length]; exact k1, fun a ha => ⟨(k2 a ha).1, fun c hc => ?_⟩⟩
  exact RB.mem_enumerate_of_toPre ((k2 a ha).2 c hc)

end Str

section Label
open Verif.DL Verif.DLHeap
variable {V : Type} [Inhabited V]

/-- C78, dltree: the `Tree` object and the cells of the listed entries. -/
theorem C78_dltree (st : Bool) (ops : List (SOp (DL.Op V))) {f : Nat} (hf : 2 * ops.length + 3 ≤ f)
    (hl : (Book.init : Book (DL.Op V)).LegalAll2 dlCow (dlInp st) ops) :
    ∃ s, OStore.init.exec (dlImpl st f) ops = .ok s ∧ s.roots.length = (Book.init.exec ops).vs.length ∧
      ∀ r ∈ s.roots, ∃ l, answer (RawEnumerateP lm f r) s.heap = some l ∧
        Keeps s.heap (fun _ => []) r (1 + l.length) fun d => ∀ kv, DLHeap.stored d = some kv → kv ∈ l := by
  obtain ⟨s, e, _, h1, h2⟩ := obj_history (dlImpl_lawful (V := V) st hf) ops (Nat.le_refl _) hl
  refine ⟨s, e, h1, fun r hr => ?_⟩
  obtain ⟨i, hi, rfl⟩ := List.getElem_of_mem hr
  obtain ⟨hn, F, _, A, hL, _, _⟩ := h2 i _ _ (List.getElem?_eq_getElem hi) (List.getElem?_eq_getElem (h1 ▸ hi))
  refine ⟨_, answer_of_wp (W := fun _ => False) (RawEnumerateP_spec hL (tall_lt (by omega))), ?_⟩
  have he : RawEnumerate (treeOf s.roots[i] A) = RB.enumerate (ATree.erase A) := by rw [RawEnumerate, hL.rootOf]
  rw [← he]
  exact DLHeap.keeps_of_rep hL

end Label

section Net
variable {V : Type} [Inhabited V]

/-- C78, iptree: at most one cell and three more per listed network; every stored value is listed or nil. -/
theorem C78_iptree (st : Bool) {f : Nat} (hf : 66 ≤ f) (ops : List (SOp (IP.Op V)))
    (hl : (Book.init : Book (IP.Op V)).LegalAll2 (fun _ _ => True) (IPHeap.ipImpl st f).inpOk ops) :
    ∃ s, OStore.init.exec (IPHeap.ipImpl st f) ops = .ok s ∧ s.roots.length = (Book.init.exec ops).vs.length ∧
      ∀ r ∈ s.roots, ∃ l : List (IPNet × V), answer (IPHeap.EnumerateTreeP f r) s.heap = some (l.map fun p => (p.1, .user p.2)) ∧
        Keeps s.heap IPHeap.outs r (1 + 3 * l.length) fun d => ∀ v, IPHeap.stored d = some v → v = default ∨ ∃ k, (k, v) ∈ l := by
  obtain ⟨s, e, _, h1, h2⟩ := obj_history (IPHeap.ipImpl_lawful (V := V) st hf ops.length) ops (Nat.le_refl _) hl
  refine ⟨s, e, h1, fun r hr => ?_⟩
  obtain ⟨i, hi, rfl⟩ := List.getElem_of_mem hr
  obtain ⟨_, F, t, ht, hT⟩ := h2 i _ _ (List.getElem?_eq_getElem hi) (List.getElem?_eq_getElem (h1 ▸ hi))
  refine ⟨_, answer_of_wp (W := fun _ => False) (IPHeap.EnumerateTreeP_spec hf hT), IPHeap.keeps_of_rep hT ?_ (IP.run_glue (IPHeap.start0_empty st) _ ht)⟩
  obtain ⟨ps, p1, p2⟩ := opNets ((Book.init.exec ops).vs[i]'(h1 ▸ hi)).2
  obtain ⟨t', q1, q2, _⟩ := IP.run_spec (IPHeap.start0_empty st) ps p2
  rw [p1, ht] at q1
  cases q1
  exact q2

/-- C78, uintX iptree: at most one cell and three more per listed network; every stored value is listed or zero. -/
theorem C78_uintx_iptree (st : Bool) {f : Nat} (hf : 66 ≤ f) (ops : List (SOp (IP.Op V)))
    (hl : (Book.init : Book (IP.Op V)).LegalAll2 (fun _ _ => True) (UIPHeap.uipImpl st f).inpOk ops) :
    ∃ s, OStore.init.exec (UIPHeap.uipImpl st f) ops = .ok s ∧ s.roots.length = (Book.init.exec ops).vs.length ∧
      ∀ r ∈ s.roots, ∃ l : List (IPNet × V), answer (UIPHeap.EnumerateTreeP f r) s.heap = some l ∧
        Keeps s.heap UIPHeap.outs r (1 + 3 * l.length) fun d => ∀ v, UIPHeap.stored d = some v → v = default ∨ ∃ k, (k, v) ∈ l := by
  obtain ⟨s, e, _, h1, h2⟩ := obj_history (UIPHeap.uipImpl_lawful (V := V) st hf ops.length) ops (Nat.le_refl _) hl
  refine ⟨s, e, h1, fun r hr => ?_⟩
  obtain ⟨i, hi, rfl⟩ := List.getElem_of_mem hr
  obtain ⟨_, F, t, hT, hL, _, hG⟩ := h2 i _ _ (List.getElem?_eq_getElem hi) (List.getElem?_eq_getElem (h1 ▸ hi))
  exact ⟨_, answer_of_wp (W := fun _ => False) (UIPHeap.EnumerateTreeP_spec hf hT), UIPHeap.keeps_of_rep hT hL.1 hG⟩

end Net

section Dom
open Verif.Domain Verif.DomTree Verif.DomHeap
variable {V : Type}

theorem nodup_of_fst {α β : Type} {l : List (α × β)} (h : (l.map Prod.fst).Nodup) : l.Nodup := by
  rw [List.nodup_iff_pairwise_ne, List.pairwise_map] at h
  rw [List.nodup_iff_pairwise_ne]
  exact h.imp fun h e => h (congrArg _ e)

theorem keeps_of_prep {m k : Nat} {h : Heap (DD V)} {r : Ptr} {n : Option (Node V)} {F : Addr → Prop} (hN : PRep m h k r n F) (hw : WF (DomTree.base n))
    {es : List (List Bytes × V)} (hes : (es.map Prod.fst).Nodup) (hm : ∀ q v, (q, v) ∈ es ↔ valueAt (DomTree.base n) q = some v) :
    Keeps h outs r (2 + 3 * (es.map fun e => e.1.length).sum) fun d => ∀ v, DomHeap.stored d = some v → ∃ q, (q, v) ∈ es := by
  cases r with
  | none => exact ⟨[], by simp, fun a ha => (held_none ha).elim⟩
  | some a =>
    cases n with
    | none => exact hN.elim
    | some n =>
      rw [DomTree.base_some] at hw hm
      obtain ⟨es', L, e1, e2, e3, e4⟩ := keeps_spec hN hw
      have hnd : es'.Nodup := by
        rw [List.nodup_iff_pairwise_ne]
        refine e2.imp ?_
        rintro a _ hab rfl
        have irr : ∀ q : List Bytes, ¬ DomLt q q := by
          intro q
          induction q with
          | nil => exact id
          | cons x q ih =>
            rintro ((h | ⟨_, h⟩) | ⟨_, h⟩)
            · exact Nat.lt_irrefl _ h
            · exact List.lt_irrefl _ h
            · exact ih h
        exact irr _ hab
      have hp : es'.Perm es := by
        refine (List.perm_ext_iff_of_nodup hnd (nodup_of_fst hes)).2 ?_
        rintro ⟨q, v⟩
        rw [e1, hm]
      have hs : labels es' = (es.map fun e => e.1.length).sum := (hp.map _).sum_nat
      refine ⟨L, by rw [← hs]; exact e3, fun x hx => ⟨(e4 x hx).1, fun c hc v hv => ?_⟩⟩
      obtain ⟨q, hq⟩ := (e4 x hx).2 c hc v hv
      exact ⟨q, hp.mem_iff.1 hq⟩

/-- C78, domaintree: at most two cells and three more for each label of each listed domain; every stored value is listed. -/
theorem C78_domaintree (st : Bool) (ops : List (SOp (Op V))) {f : Nat} (hf : 2 * ops.length + 3 ≤ f) (hk : 128 ≤ f)
    (hl : (Book.init : Book (Op V)).LegalAll2 cowOk (inpOk st) ops) :
    ∃ s, OStore.init.exec (domImpl st f) ops = .ok s ∧ s.roots.length = (Book.init.exec ops).vs.length ∧
      ∀ r ∈ s.roots, ∃ (xs : List (Bytes × V)) (es : List (List Bytes × V)), answer (EnumerateTreeP f r) s.heap = some xs ∧
        xs.map (fun x => (parseLabels x.1, x.2)) = es.map (fun e => (some e.1, e.2)) ∧
        Keeps s.heap outs r (2 + 3 * (es.map fun e => e.1.length).sum) fun d => ∀ v, DomHeap.stored d = some v → ∃ k, (k, v) ∈ xs := by
  obtain ⟨s, e, _, h1, h2⟩ := obj_history (domImpl_lawful (V := V) st hf) ops (Nat.le_refl _) hl
  refine ⟨s, e, h1, fun r hr => ?_⟩
  obtain ⟨i, hi, rfl⟩ := List.getElem_of_mem hr
  obtain ⟨hn, F, h0, n, ht, hN⟩ := h2 i _ _ (List.getElem?_eq_getElem hi) (List.getElem?_eq_getElem (h1 ▸ hi))
  obtain ⟨xs, x1, es, x2, x3, x4⟩ := lists_of_run h0 ht
  obtain ⟨ps, p1, p2, p3, _⟩ := named_ops h0
  rw [← p1] at ht
  obtain ⟨w1, w2⟩ := DomTree.run_spec (start0_empty st) ps p2 ht
  refine ⟨xs, es, answer_of_wp (W := fun _ => False) (EnumerateTreeP_spec (DLHeap.tall_lt (by omega)) hk hN x1), x2, ?_⟩
  have hm : ∀ q v, (q, v) ∈ es ↔ valueAt (DomTree.base n) q = some v := by
    intro q v
    rw [x4, w2, storedBy, p3]
  obtain ⟨L, l1, l2⟩ := keeps_of_prep hN w1 x3 hm
  refine ⟨L, l1, fun x hx => ⟨(l2 x hx).1, fun c hc v hv => ?_⟩⟩
  obtain ⟨q, hq⟩ := (l2 x hx).2 c hc v hv
  have : (some q, v) ∈ xs.map (fun x => (parseLabels x.1, x.2)) := by
    rw [x2]; exact List.mem_map.2 ⟨_, hq, rfl⟩
  obtain ⟨⟨k, v'⟩, h3, h4⟩ := List.mem_map.1 this
  simp only [Prod.mk.injEq] at h4
  exact ⟨k, h4.2 ▸ h3⟩

end Dom

/-! ## Samples -/

/-- Addresses that can be reached from the pointers `ps` in at most `f` steps, for running samples. -/
def reached {D : Type} (h : Heap D) (out : D → List Ptr) : Nat → List Ptr → List Addr → List Addr
  | 0, _, seen => seen
  | _ + 1, [], seen => seen
  | f + 1, none :: ps, seen => reached h out f ps seen
  | f + 1, some a :: ps, seen =>
    if a ∈ seen then reached h out f ps seen
    else match h.mem a with
      | none => reached h out f ps seen
      | some c => reached h out f (c.c0 :: c.c1 :: out c.d ++ ps) (a :: seen)

example := C78_numtree (f := 34) (by omega) heapSample heapSample_legal
example := C78_strtree compareBytes_lawful.refl kvSample (f := 33) (by decide) kvSample_legal
example := C78_dltree true dlSample (f := 30) (by decide) dlSample_legal
example := C78_iptree true (f := 66) (by omega) ipSample ipSample_legal
example := C78_uintx_iptree true (f := 66) (by omega) uipSample uipSample_legal
example := C78_domaintree true domSample (f := 128) (by decide) (by decide) domSample_legal

/-- For every held tree of the numtree sample: cells kept alive and entries listed.  The last one has a glue node for two entries. -/
example : (match Store.init.exec (NumHeap.numImpl 34 32 Nat) heapSample with
    | .ok s => s.roots.map fun r => ((reached s.heap (fun _ => []) 50 [r] []).length, (answer (NumHeap.EnumerateP 34 r) s.heap).map List.length)
    | .error _ => []) = [(0, some 0), (1, some 1), (2, some 2), (2, some 2), (1, some 1), (3, some 2)] := by decide +kernel

/-- The same for iptree. -/
example : (match OStore.init.exec (IPHeap.ipImpl true 66) ipSample with
    | .ok s => s.roots.map fun r => ((reached s.heap IPHeap.outs 50 [r] []).length, (answer (IPHeap.EnumerateTreeP 66 r) s.heap).map List.length)
    | .error _ => []) = [(1, some 0), (6, some 4), (3, some 1), (4, some 2), (3, some 1), (3, some 1), (5, some 3)] := by decide +kernel

/-- The same for domaintree; no cell of `com` is left where everything below it was deleted. -/
example : (match OStore.init.exec (DomHeap.domImpl true 128) domSample with
    | .ok s => s.roots.map fun r => ((reached s.heap DomHeap.outs 50 [r] []).length, (answer (DomHeap.EnumerateTreeP 128 r) s.heap).map List.length)
    | .error _ => []) = [(1, some 0), (14, some 3), (10, some 1), (10, some 2), (2, some 0), (8, some 1), (15, some 3)] := by decide +kernel

end Verif.Props
