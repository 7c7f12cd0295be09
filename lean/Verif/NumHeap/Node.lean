import Verif.NumHeap.History
import Verif.Num.Node

/-! # Nodes of a tree as trees, on memory -/

namespace Verif.NumHeap
open Verif.Heap Verif.Heap.Prog Verif.Heap.ATree Verif.Num
variable {w : Nat} {V : Type}

/-- numtree/node32.go:129-131 `Children`, numtree/node64.go:68-70. -/
def ChildrenP (n : Ptr) : Prog (ND w V) (Ptr × Ptr) := do
  let nc ← load n
  pure (nc.c0, nc.c1)

/-- `if n != nil { l, r := n.Children() … }` with one of the two taken. -/
def childP (b : Bool) (n : Ptr) : Prog (ND w V) Ptr :=
  if n = none then pure none
  else do
    let lr ← ChildrenP n
    pure (if b then lr.2 else lr.1)

/-- `if r := t.FindNode(key, bits); r != nil { r.Value = value }`; the root stays. -/
def assignP [KeySize w] (f : Nat) (t : Ptr) (key : BitVec w) (bits : Int) (value : V) : Prog (ND w V) Ptr := do
  let r ← FindNodeP f t key bits
  if r = none then pure t
  else do
    upd r (fun c => { c with d := { c.d with value := value } })
    pure t

/-- The copy-on-write way to the same: `if r := t.FindNode(key, bits); r != nil { t = t.Insert(r.Key, int(r.Bits), value) }`. -/
def reinsertP [KeySize w] [Inhabited V] (f : Nat) (t : Ptr) (key : BitVec w) (bits : Int) (value : V) : Prog (ND w V) Ptr := do
  let r ← FindNodeP f t key bits
  if r = none then pure t
  else do
    let rc ← load r
    InsertP f t rc.d.key rc.d.bits value

theorem childP_spec {W : Addr → Prop} {h : Heap (ND w V)} {t : ATree (ND w V)} (ht : Rep h t) (b : Bool) :
    wp W (childP b (ptr t)) (fun r h' => h' = h ∧ r = ptr (t.child b)) h := by
  cases t with
  | nil => exact ⟨rfl, by cases b <;> rfl⟩
  | node ad l r =>
    obtain ⟨h1, _⟩ := ht
    simp only [childP, ChildrenP, ptr_node, reduceCtorEq, if_false, wp_bind, wp_load h1, wp_pure]
    exact ⟨trivial, by cases b <;> rfl⟩

section
variable [KeySize w]

/-- The annotated subtree `exactMatch` finds. -/
def findA : ATree (ND w V) → BitVec w → Nat → ATree (ND w V)
  | .nil, _, _ => .nil
  | .node ad l r, key, bits =>
    if ad.2.bits > bits then .nil
    else if ad.2.bits = bits then
      if ad.2.leaf && agree ad.2.key key ad.2.bits then .node ad l r else .nil
    else if !agree ad.2.key key ad.2.bits then .nil
    else if branch key ad.2.bits then findA r key bits
    else findA l key bits

/-- The annotated tree after the assignment. -/
def assignA : ATree (ND w V) → BitVec w → Nat → V → ATree (ND w V)
  | .nil, _, _, _ => .nil
  | .node ad l r, key, bits, v =>
    if ad.2.bits > bits then .node ad l r
    else if ad.2.bits = bits then
      if ad.2.leaf && agree ad.2.key key ad.2.bits then .node (ad.1, { ad.2 with value := v }) l r else .node ad l r
    else if !agree ad.2.key key ad.2.bits then .node ad l r
    else if branch key ad.2.bits then .node ad l (assignA r key bits v)
    else .node ad (assignA l key bits v) r

theorem findA_erase (t : ATree (ND w V)) (key : BitVec w) (bits : Nat) : erase (findA t key bits) = exactMatch (erase t) key bits := by
  induction t with
  | nil => rfl
  | node ad l r ihl ihr =>
    simp only [findA, erase_node, exactMatch]
    repeat' split
    all_goals simp_all

theorem assignA_erase (t : ATree (ND w V)) (key : BitVec w) (bits : Nat) (v : V) : erase (assignA t key bits v) = assignN (erase t) key bits v := by
  induction t with
  | nil => rfl
  | node ad l r ihl ihr =>
    simp only [assignA, erase_node, assignN]
    repeat' split
    all_goals simp_all

theorem assignA_same (t : ATree (ND w V)) (key : BitVec w) (bits : Nat) (v : V) :
    ptr (assignA t key bits v) = ptr t ∧ ∀ x, cnt x (assignA t key bits v) = cnt x t := by
  induction t with
  | nil => exact ⟨rfl, fun _ => rfl⟩
  | node ad l r ihl ihr =>
    simp only [assignA]
    repeat' split
    all_goals simp [ihl.2, ihr.2]

theorem findA_cnt (t : ATree (ND w V)) (key : BitVec w) (bits : Nat) (x : Addr) : cnt x (findA t key bits) ≤ cnt x t := by
  induction t with
  | nil => simp [findA]
  | node ad l r ihl ihr =>
    simp only [findA]
    repeat' split
    all_goals simp
    all_goals omega

theorem assignA_nil {t : ATree (ND w V)} {key : BitVec w} {bits : Nat} (v : V) (he : findA t key bits = .nil) : assignA t key bits v = t := by
  induction t with
  | nil => rfl
  | node ad l r ihl ihr =>
    simp only [findA] at he
    unfold assignA
    split
    · rfl
    · split
      · split
        · simp_all
        · rfl
      · split
        · rfl
        · simp_all only [if_false]
          split
          · rename_i hb; simp only [hb, if_true] at he; rw [ihr he]
          · rename_i hb; simp only [hb] at he; rw [ihl (by simpa using he)]

/-- Writing the value into the cell found. -/
theorem assignA_rep {h : Heap (ND w V)} {t : ATree (ND w V)} (ht : Rep h t) (hc : ∀ x, cnt x t ≤ 1) {key : BitVec w} {bits : Nat} (v : V)
    {a : Addr} {d : ND w V} {x y : ATree (ND w V)} (he : findA t key bits = .node (a, d) x y) :
    Rep (h.put a ⟨{ d with value := v }, ptr x, ptr y⟩) (assignA t key bits v) := by
  induction t with
  | nil => simp [findA] at he
  | node ad l r ihl ihr =>
    obtain ⟨h1, h2, h3, h4⟩ := ht
    have hcl : ∀ z, cnt z l ≤ 1 := fun z => by have := hc z; simp at this; omega
    have hcr : ∀ z, cnt z r ≤ 1 := fun z => by have := hc z; simp at this; omega
    have hfa : 1 ≤ cnt a (findA (.node ad l r) key bits) := by rw [he]; simp; omega
    simp only [findA] at he
    simp only [assignA]
    by_cases g1 : ad.2.bits > bits
    · simp [g1] at he
    · simp only [g1, if_false] at he ⊢
      by_cases g2 : ad.2.bits = bits
      · simp only [g2, if_true] at he ⊢
        split at he
        · rename_i hh
          rw [if_pos hh]
          cases he
          have ha := hc a
          simp only [cnt_node, if_true] at ha
          have g2 : d.bits = bits := g2
          exact ⟨by simp [g2], h2, rep_put h3 (by omega) _, rep_put h4 (by omega) _⟩
        · cases he
      · simp only [g2, if_false] at he ⊢
        split at he
        · cases he
        · rename_i hh
          rw [if_neg hh]
          split at he
          · rename_i hb
            simp only [hb, if_true]
            have ha : 1 ≤ cnt a r := by
              have := findA_cnt r key bits a
              rw [he] at this; simp at this; omega
            have hca := hc a
            simp only [cnt_node] at hca
            have hne : ad.1 ≠ a := by intro e; simp only [e, if_true] at hca; omega
            refine ⟨?_, h2, rep_put h3 (by omega) _, ihr h4 hcr he⟩
            rw [Heap.mem_put, if_neg hne, (assignA_same r key bits v).1]; exact h1
          · rename_i hb
            simp only [hb]
            have ha : 1 ≤ cnt a l := by
              have := findA_cnt l key bits a
              rw [he] at this; simp at this; omega
            have hca := hc a
            simp only [cnt_node] at hca
            have hne : ad.1 ≠ a := by intro e; simp only [e, if_true] at hca; omega
            refine ⟨?_, h2, ihl h3 hcl he, rep_put h4 (by omega) _⟩
            rw [Heap.mem_put, if_neg hne, (assignA_same l key bits v).1]; exact h1

theorem findA_rep {h : Heap (ND w V)} {t : ATree (ND w V)} (ht : Rep h t) (key : BitVec w) (bits : Nat) : Rep h (findA t key bits) := by
  induction t with
  | nil => trivial
  | node ad l r ihl ihr =>
    simp only [findA]
    repeat' split
    all_goals first | trivial | exact ht | exact ihr ht.2.2.2 | exact ihl ht.2.2.1

theorem exactMatchP_find (f : Nat) (t : ATree (ND w V)) (hf : t.height < f) (h : Heap (ND w V)) (ht : Rep h t) (hn : t ≠ .nil) (key : BitVec w) (bits : Nat) :
    wp (fun _ => False) (exactMatchP f (ptr t) key bits) (fun r h' => h' = h ∧ r = ptr (findA t key bits)) h := by
  induction f generalizing t with
  | zero => omega
  | succ f ih =>
  cases t with
  | nil => exact absurd rfl hn
  | node ad l r =>
    obtain ⟨n, nd⟩ := ad
    obtain ⟨h1, h2, h3, h4⟩ := id ht
    simp only at h1 h2
    simp only [exactMatchP, ptr_node, wp_bind, wp_load h1, findA]
    split
    · exact ⟨rfl, rfl⟩
    · split
      · split <;> exact ⟨rfl, rfl⟩
      · split
        · exact ⟨rfl, rfl⟩
        · have e : ∀ r : Ptr, (if r ≠ none then pure r else pure none : Prog (ND w V) Ptr) = pure r := by
            intro r; cases r <;> rfl
          simp only [e]
          have key' : ∀ c : ATree (ND w V), c.height < f → Rep h c → wp (fun _ => False) (ifNotNil (ptr c) none (exactMatchP f (ptr c) key bits))
              (fun r h' => h' = h ∧ r = ptr (findA c key bits)) h := by
            intro c hcf hcr
            cases c with
            | nil => exact ⟨rfl, rfl⟩
            | node ad' l' r' => exact ih _ hcf hcr (by simp)
          simp only [BTree.height_node] at hf
          cases hb : branch key nd.bits with
          | true => simp only [wp_bind, wp_pure]; exact key' r (by omega) h4
          | false => simp only [wp_bind, wp_pure]; exact key' l (by omega) h3

theorem FindNodeP_find {f : Nat} {t : ATree (ND w V)} (hf : t.height < f) {h : Heap (ND w V)} (ht : Rep h t) (key : BitVec w) (bits : Int) :
    wp (fun _ => False) (FindNodeP f (ptr t) key bits) (fun r h' => h' = h ∧ r = ptr (findA t key (clamp w bits))) h := by
  cases t with
  | nil => exact ⟨rfl, rfl⟩
  | node ad l r =>
    have e : FindNodeP (V := V) f (ptr (.node ad l r)) key bits = (do
      let r ← exactMatchP f (ptr (.node ad l r)) key (clamp w bits)
      if r = none then pure none else pure r) := rfl
    rw [e, wp_bind]
    refine wp_conseq (exactMatchP_find f _ hf h ht (by simp) key _) ?_
    rintro q _ ⟨rfl, rfl⟩
    cases findA (.node ad l r) key (clamp w bits) <;> exact ⟨rfl, rfl⟩

theorem assignP_spec {f : Nat} {t : ATree (ND w V)} (hf : t.height < f) {h : Heap (ND w V)} (ht : Rep h t) (hc : ∀ x, cnt x t ≤ 1) (key : BitVec w) (bits : Int) (v : V) :
    wp (fun a => 1 ≤ cnt a t) (assignP f (ptr t) key bits v) (fun r h' => r = ptr (assignA t key (clamp w bits) v) ∧ Rep h' (assignA t key (clamp w bits) v)) h := by
  unfold assignP
  rw [wp_bind]
  refine wp_mono (fun _ => False.elim) ?_ (FindNodeP_find hf ht key bits)
  rintro q _ ⟨rfl, rfl⟩
  have hr := findA_rep ht key (clamp w bits)
  have hcn := findA_cnt t key (clamp w bits)
  cases he : findA t key (clamp w bits) with
  | nil =>
    rw [assignA_nil v he]
    exact ⟨rfl, ht⟩
  | node ad x y =>
    obtain ⟨a, d⟩ := ad
    rw [he] at hr hcn
    simp only [ptr_node, reduceCtorEq, if_false, wp_bind, wp_upd hr.1, wp_pure]
    refine ⟨?_, (assignA_same _ _ _ _).1.symm, assignA_rep ht hc v he⟩
    have := hcn a
    simp at this; omega

end

variable [LawfulKeySize w] [Inhabited V]

theorem reinsertP_spec {f : Nat} {t : ATree (ND w V)} (hf : t.height < f) {h : Heap (ND w V)} (ht : Rep h t) {P : List Bool} (hw : WF P (erase t)) (key : BitVec w) (bits : Int) (v : V) :
    wp (fun a => h.next ≤ a) (reinsertP f (ptr t) key bits v) (fun r h' => ∃ t', r = ptr t' ∧ Rep h' t' ∧ erase t' = assignN (erase t) key (clamp w bits) v ∧
      ∀ x, cnt x t' ≤ if h.next ≤ x then 1 else cnt x t) h := by
  unfold reinsertP
  rw [wp_bind]
  refine wp_mono (fun _ => False.elim) ?_ (FindNodeP_find hf ht key bits)
  rintro q _ ⟨rfl, rfl⟩
  have hr := findA_rep ht key (clamp w bits)
  have hE := findA_erase t key (clamp w bits)
  cases he : findA t key (clamp w bits) with
  | nil =>
    rw [he] at hE
    refine ⟨t, rfl, ht, (assignN_nil v hE.symm).symm, fun x => ?_⟩
    have := rep_zero ht x
    split
    · rename_i hx; rw [this hx]; omega
    · exact Nat.le_refl _
  | node ad x y =>
    obtain ⟨a, d⟩ := ad
    rw [he] at hr hE
    simp only [ptr_node, reduceCtorEq, if_false, wp_bind, wp_load hr.1]
    refine wp_conseq (InsertP_spec hf ht d.key d.bits v) ?_
    rintro p h' ⟨t', h1, h2, h3, h4⟩
    refine ⟨t', h1, h2, ?_, h4⟩
    have hx := exactMatch_found hw (clamp_le bits) hE.symm
    rw [h3, assignN_found hw (clamp_le bits) v hE.symm]
    have hcl : clamp w (d.bits : Int) = clamp w bits := by
      have h1 : d.bits = clamp w bits := hx.1
      have h2 : d.bits ≤ w := by rw [h1]; exact clamp_le bits
      rw [← h1]
      unfold clamp
      split
      · omega
      · split <;> omega
    simp only [Num.Insert, hcl]

theorem runN_height (ops : List (NodeOp w V)) : (runN ops).height ≤ w + 1 := by
  have := (runN_wf ops).1.height_le (by simp)
  simpa using this

/-- numtree with the nodes of trees as trees: everything but `InplaceInsert` and the assignment is copy-on-write. -/
def nodeImpl (f : Nat) (w : Nat) (V : Type) [LawfulKeySize w] [Inhabited V] : Impl (ND w V) (NodeOp w V) where
  cow
    | .insert k b v, r => InsertP f r k b v
    | .delete k b, r => do
      let x ← DeleteP f r k b
      pure x.1
    | .assign k b v, r => reinsertP f r k b v
    | .find k b, r => FindNodeP f r k b
    | .child b, r => childP b r
  inp
    | .insert k b v, r => InplaceInsertP f r k b v
    | .assign k b v, r => assignP f r k b v
    | .delete _ _, r => pure r
    | .find _ _, r => pure r
    | .child _, r => pure r
  inpOk
    | .insert _ _ _ => True
    | .assign _ _ _ => True
    | .delete _ _ => False
    | .find _ _ => False
    | .child _ => False
  run := runN

theorem nodeImpl_lawful {f : Nat} (hf : w + 2 ≤ f) (n : Nat) : (nodeImpl f w V).Lawful n where
  run_nil := rfl
  cow_ok ops o A h _ hA hE hN := by
    have hE' : erase A = runN ops := hE
    have hh : A.height < f := by
      have := runN_height (w := w) (V := V) ops
      have e := erase_height A
      rw [hE'] at e
      omega
    have hz : ∀ s : ATree (ND w V), (∀ x, cnt x s ≤ cnt x A) → ∀ x, cnt x s ≤ if h.next ≤ x then 1 else cnt x A := by
      intro s hs x
      have h1 := hs x
      split
      · rename_i hx; have := rep_zero hA x hx; omega
      · exact h1
    cases o with
    | insert k b v =>
      refine wp_conseq (InsertP_spec hh hA k b v) ?_
      rintro p h' ⟨t', h1, h2, h3, h4⟩
      refine ⟨t', h1, h2, ?_, h4⟩
      rw [h3, hE]; rfl
    | delete k b =>
      show wp _ (do
        let x ← DeleteP f (ptr A) k b
        pure x.1) _ h
      rw [wp_bind]
      refine wp_conseq (DeleteP_spec hh hA k b) ?_
      rintro p h' ⟨t', h1, h2, h3, _, h4⟩
      refine ⟨t', h1, h2, ?_, h4⟩
      rw [hE] at h3
      exact congrArg Prod.fst h3
    | assign k b v =>
      refine wp_conseq (reinsertP_spec hh hA (P := []) (by rw [hE']; exact (runN_wf ops).1) k b v) ?_
      rintro p h' ⟨t', h1, h2, h3, h4⟩
      refine ⟨t', h1, h2, ?_, h4⟩
      rw [h3, hE]; rfl
    | find k b =>
      refine wp_mono (fun _ => False.elim) ?_ (FindNodeP_find hh hA k b)
      rintro p _ ⟨rfl, rfl⟩
      refine ⟨_, rfl, findA_rep hA _ _, ?_, hz _ (findA_cnt A _ _)⟩
      rw [findA_erase, hE]; rfl
    | child b =>
      refine wp_conseq (childP_spec hA b) ?_
      rintro p _ ⟨rfl, rfl⟩
      refine ⟨_, rfl, rep_child hA b, ?_, hz _ fun x => ?_⟩
      · rw [erase_child, hE', ← childOf_eq]; rfl
      · cases A with
        | nil => cases b <;> simp
        | node ad l r => rw [cnt_child x ad l r b]; omega
  inp_ok ops o A h _ ho hA hE hN := by
    have hE' : erase A = runN ops := hE
    have hh : A.height < f := by
      have := runN_height (w := w) (V := V) ops
      have e := erase_height A
      rw [hE'] at e
      omega
    cases o with
    | insert k b v =>
      refine wp_conseq (InplaceInsertP_spec hh hA hN k b v) ?_
      rintro p h' ⟨t', h1, h2, h3, h4⟩
      refine ⟨t', h1, h2, ?_, h4⟩
      rw [h3, hE]; rfl
    | assign k b v =>
      refine wp_mono (fun _ => .inl) ?_ (assignP_spec hh hA hN k b v)
      rintro p h' ⟨rfl, h2⟩
      refine ⟨_, rfl, h2, ?_, fun x => ?_⟩
      · rw [assignA_erase, hE]; rfl
      · rw [(assignA_same A k _ v).2]
        have := rep_zero hA x
        split
        · rename_i hx; rw [this hx]; omega
        · exact Nat.le_refl _
    | delete k b => exact ho.elim
    | find k b => exact ho.elim
    | child b => exact ho.elim

end Verif.NumHeap
