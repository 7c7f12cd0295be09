import Verif.RBHeap.Del
import Verif.RB.History
import Verif.Heap.Client

/-!
# Readers of the red-black tree on memory, and histories
-/

namespace Verif.RB
variable {K V : Type} {cmp : K → K → Int}

theorem height_le_size {D : Type} (t : BTree D) : t.height ≤ t.size := by
  induction t with
  | nil => simp
  | node d l r ihl ihr => simp only [BTree.height, BTree.size]; omega

theorem fix_key {ctx ctx' : List (Frame K V)} {nd d : RD K V} {nl nr l r : RTree K V} (h : fix ctx (.node nd nl nr) = some (ctx', .node d l r)) :
    d.key = nd.key := by
  unfold fix at h
  split at h
  · cases ctx with
    | nil => simp at h
    | cons P ctx =>
      cases ctx with
      | nil => simp at h
      | cons G ctx =>
        simp only at h
        split at h
        · simp only [Option.some.injEq, Prod.mk.injEq, BTree.node.injEq] at h
          rw [← h.2.1]
        · simp only [Option.some.injEq, Prod.mk.injEq] at h
          cases hg : G.dir <;> rw [hg] at h <;> simp at h <;> rw [← h.2.1] <;> rfl
  · simp only [Option.some.injEq, Prod.mk.injEq, BTree.node.injEq] at h
    rw [← h.2.1]

theorem insLoop_size [Inhabited V] {key : K} {value : V} (hrefl : cmp key key = 0) {fuel : Nat} {ctx : List (Frame K V)}
    {foc t : RTree K V} (h : insLoop cmp key value fuel ctx foc = some t) : (enumerate t).length ≤ (whole ctx foc).length + 1 := by
  induction fuel generalizing ctx foc with
  | zero => simp [insLoop] at h
  | succ fuel ih =>
    unfold insLoop at h
    split at h
    · rename_i ctx' d l r hfix
      obtain ⟨X, Y, h1, h2, h3⟩ := fix_spec hfix
      have hw : whole ctx' (.node d l r) = whole ctx (visit key foc) := by
        unfold whole; rw [h3, h1, h2]; simp
      have hpl : ∀ x : V, (enumerate (plug (.node { d with value := x } l r) ctx')).length = (whole ctx' (.node d l r)).length := by
        intro x; rw [enumerate_plug]; simp [whole, enumerate]
      cases foc with
      | nil =>
        have hd : d.key = key := by
          exact fix_key hfix
        simp only [hd, hrefl, if_true, Option.some.injEq] at h
        have e := hpl value
        rw [hd] at e
        rw [← h, e, hw]
        simp [whole, visit, enumerate]; omega
      | node fd fl fr =>
        have hv : enumerate (visit key (.node fd fl fr)) = enumerate (.node fd fl fr) := by
          simp only [visit]; split <;> simp [enumerate]
        have hw' : whole ctx' (.node d l r) = whole ctx (.node fd fl fr) := by
          rw [hw]; unfold whole; rw [hv]
        rw [← hw']
        simp only at h
        split at h
        · cases h; rw [hpl]; omega
        · split at h
          · have := ih h
            simp only [whole, leftL, rightL, enumerate, List.length_append] at this ⊢
            simp at this ⊢; omega
          · have := ih h
            simp only [whole, leftL, rightL, enumerate, List.length_append] at this ⊢
            simp at this ⊢; omega
    · cases h

theorem insert_size [Inhabited V] {key : K} {value : V} (hrefl : cmp key key = 0) {t t' : RTree K V} (h : insert cmp t key value = some t') :
    t'.size ≤ t.size + 1 := by
  rw [← length_enumerate, ← length_enumerate]
  cases t with
  | nil => simp only [insert, Option.some.injEq] at h; subst h; simp [enumerate]
  | node d l r =>
    simp only [insert, Option.map_eq_some_iff] at h
    obtain ⟨u, hu, rfl⟩ := h
    have := insLoop_size hrefl hu
    simpa [whole, leftL, rightL] using this

theorem setTgt_length (k : K) (v : V) (ctx : List (Frame K V)) :
    (leftL (setTgt k v ctx)).length = (leftL ctx).length ∧ (rightL (setTgt k v ctx)).length = (rightL ctx).length := by
  induction ctx with
  | nil => exact ⟨rfl, rfl⟩
  | cons f fs ih =>
    unfold setTgt
    split
    · cases hd : f.dir <;> simp [leftL, rightL, hd]
    · cases hd : f.dir <;> simp [leftL, rightL, hd, ih]

theorem delLoop_size {key : K} {ctx : List (Frame K V)} {foc : RTree K V} :
    (enumerate (delLoop cmp key ctx foc).1).length ≤ (whole ctx foc).length := by
  induction foc generalizing ctx with
  | nil =>
    simp only [delLoop]
    cases ctx with
    | nil => simp [delEnd, enumerate]
    | cons f rest =>
      simp only [delEnd]
      split
      · rw [enumerate_plug]
        cases hd : f.dir <;> simp [whole, leftL, rightL, hd, enumerate]
      · split
        · rw [enumerate_plug]
          obtain ⟨e1, e2⟩ := setTgt_length f.d.key f.d.value rest
          cases hd : f.dir <;> simp [whole, leftL, rightL, hd, enumerate, e1, e2] <;> omega
        · rw [enumerate_plug]
          cases hd : f.dir <;> simp [whole, leftL, rightL, hd, enumerate]
  | node d l r ihl ihr =>
    unfold delLoop
    simp only
    split
    · obtain ⟨f1, f2, _, _⟩ := delFix_spec ctx { d := d, dir := true, sib := l, tgt := false } r
      refine Nat.le_trans ihr ?_
      simp only [whole, f1, f2]; simp [leftL, rightL, enumerate]
    · obtain ⟨f1, f2, _, _⟩ := delFix_spec ctx { d := d, dir := false, sib := r, tgt := decide (cmp d.key key = 0) } l
      refine Nat.le_trans ihl ?_
      simp only [whole, f1, f2]; simp [leftL, rightL, enumerate]

theorem del_size (t : RTree K V) (key : K) : (del cmp t key).1.size ≤ t.size := by
  rw [← length_enumerate, ← length_enumerate]
  have := delLoop_size (cmp := cmp) (key := key) (ctx := []) (foc := t)
  simpa [del, whole, leftL, rightL] using this

theorem run_size [Inhabited V] (hrefl : ∀ k, cmp k k = 0) {ops : List (KOp K V)} {t : RTree K V} (h : run cmp ops = some t) : t.size ≤ ops.length := by
  induction ops generalizing t with
  | nil => cases h; simp
  | cons op ops ih =>
    cases op with
    | insert k v =>
      simp only [run, Option.bind_eq_some_iff] at h
      obtain ⟨u, hu, h⟩ := h
      have := ih hu
      have := insert_size (hrefl k) h
      simp; omega
    | delete k =>
      simp only [run, Option.map_eq_some_iff] at h
      obtain ⟨u, hu, rfl⟩ := h
      have := ih hu
      have := del_size (cmp := cmp) u k
      simp; omega

end Verif.RB

namespace Verif.RBHeap
open Verif.Heap Verif.Heap.Prog Verif.Heap.ATree Verif.Heap.AFrame Verif.RB

variable {K V : Type} {cmp : K → K → Int}

theorem erase_height {D : Type} (t : ATree D) : (erase t).height = t.height := by
  induction t with
  | nil => rfl
  | node ad l r ihl ihr => simp [ihl, ihr]

theorem getP_spec {f : Nat} {A : ATree (RD K V)} (hf : A.height < f) {h : Heap (RD K V)} (hA : Rep h A) (key : K) :
    wp (fun _ => False) (getP cmp f (ptr A) key) (fun r h' => h' = h ∧ r = RB.get cmp (erase A) key) h := by
  induction A generalizing f with
  | nil =>
    obtain ⟨f, rfl⟩ : ∃ g, f = g + 1 := ⟨f - 1, by simp at hf; omega⟩
    simp [getP, RB.get]
  | node ad l r ihl ihr =>
    obtain ⟨f, rfl⟩ : ∃ g, f = g + 1 := ⟨f - 1, by omega⟩
    obtain ⟨h1, h2, h3, h4⟩ := hA
    simp only [BTree.height] at hf
    simp only [getP, ptr_node, ne_eq, reduceCtorEq, not_false_eq_true, if_true, wp_bind, wp_load h1, erase_node, RB.get]
    split
    · simp
    · by_cases hlt : cmp ad.2.key key < 0
      · simp only [hlt, decide_true, if_true]
        exact ihr (by omega) h4
      · simp only [hlt, decide_false, if_false]
        exact ihl (by omega) h3

theorem enumerateP_spec {f : Nat} {A : ATree (RD K V)} (hf : A.height < f) {h : Heap (RD K V)} (hA : Rep h A) :
    wp (fun _ => False) (enumerateP f (ptr A)) (fun r h' => h' = h ∧ r = RB.enumerate (erase A)) h := by
  induction A generalizing f with
  | nil =>
    obtain ⟨f, rfl⟩ : ∃ g, f = g + 1 := ⟨f - 1, by simp at hf; omega⟩
    simp [enumerateP, RB.enumerate]
  | node ad l r ihl ihr =>
    obtain ⟨f, rfl⟩ : ∃ g, f = g + 1 := ⟨f - 1, by omega⟩
    obtain ⟨h1, h2, h3, h4⟩ := hA
    simp only [BTree.height] at hf
    simp only [enumerateP, ptr_node, reduceCtorEq, if_false, wp_bind, wp_load h1, erase_node, RB.enumerate]
    refine wp_conseq (ihl (by omega) h3) ?_
    rintro a _ ⟨rfl, rfl⟩
    refine wp_conseq (ihr (by omega) h4) ?_
    rintro b _ ⟨rfl, rfl⟩
    exact ⟨rfl, rfl⟩

theorem getP_readOnly (f : Nat) (n : Ptr) (key : K) : (getP cmp f n key : Prog (RD K V) _).ReadOnly := by
  induction f generalizing n with
  | zero => trivial
  | succ f ih =>
    unfold getP
    split
    · refine ReadOnly.bind (ReadOnly.load _) fun nc => ?_
      simp only
      split
      · exact ReadOnly.pure _
      · exact ih _
    · exact ReadOnly.pure _

theorem enumerateP_readOnly (f : Nat) (n : Ptr) : (enumerateP f n : Prog (RD K V) _).ReadOnly := by
  induction f generalizing n with
  | zero => trivial
  | succ f ih =>
    unfold enumerateP
    split
    · exact ReadOnly.pure _
    · refine ReadOnly.bind (ReadOnly.load _) fun nc => ?_
      refine ReadOnly.bind (ih _) fun a => ?_
      exact ReadOnly.bind (ih _) fun b => ReadOnly.pure _

variable [Inhabited K] [Inhabited V]

/-- strtree as an implementation on memory: `insert` and `del` are copy-on-write, `inplaceInsert` is in place.
The bound `f` on loop iterations is a parameter. -/
def rbImpl (cmp : K → K → Int) (f : Nat) : Impl (RD K V) (KOp K V) where
  cow
    | .insert k v, r => insertP cmp f r k v
    | .delete k, r => do
      let x ← delP cmp f r k
      pure x.1
  inp
    | .insert k v, r => inplaceInsertP cmp f r k v
    | .delete _, r => pure r
  inpOk
    | .insert _ _ => True
    | .delete _ => False
  run ops := (RB.run cmp ops).getD .nil

omit [Inhabited K] in
theorem run_getD (hrefl : ∀ k, cmp k k = 0) (ops : List (KOp K V)) :
    RB.run cmp ops = some ((RB.run cmp ops).getD .nil) ∧ Balanced ((RB.run cmp ops).getD .nil) ∧ ((RB.run cmp ops).getD .nil).height ≤ ops.length := by
  obtain ⟨t, h1, h2⟩ := run_balanced hrefl ops
  rw [h1]
  have := run_size hrefl h1
  have := height_le_size t
  exact ⟨rfl, h2, by simp; omega⟩

theorem rbImpl_lawful (hrefl : ∀ k, cmp k k = 0) {f n : Nat} (hf : 2 * n + 3 ≤ f) : (rbImpl (V := V) cmp f).Lawful n where
  run_nil := rfl
  cow_ok ops o A h hn hA hE hN := by
    have hE : erase A = (RB.run cmp ops).getD .nil := hE
    obtain ⟨r1, r2, r3⟩ := run_getD (V := V) hrefl ops
    rw [← hE] at r1 r2 r3
    rw [erase_height] at r3
    cases o with
    | insert k v =>
      obtain ⟨T, hT, _⟩ := insert_balanced (cmp := cmp) r2 k v (hrefl k)
      refine wp_conseq (insertP_spec hA hN (by omega) hT (erase_height A)) ?_
      rintro p h' ⟨t', h1, h2, h3, h4⟩
      refine ⟨t', h1, h2, ?_, h4⟩
      show _ = (RB.run cmp (.insert k v :: ops)).getD .nil
      rw [h3]; simp [RB.run, r1, hT]
    | delete k =>
      show wp _ (do
        let x ← delP cmp f (ptr A) k
        pure x.1) _ h
      rw [wp_bind]
      refine wp_conseq (delP_spec (cmp := cmp) hA hN (f := f) (by omega) (key := k) r2) ?_
      rintro p h' ⟨t', h1, h2, h3, h4⟩
      refine ⟨t', h1, h2, ?_, h4⟩
      show _ = (RB.run cmp (.delete k :: ops)).getD .nil
      simp [RB.run, r1, ← h3]
  inp_ok ops o A h hn ho hA hE hN := by
    have hE : erase A = (RB.run cmp ops).getD .nil := hE
    obtain ⟨r1, r2, r3⟩ := run_getD (V := V) hrefl ops
    rw [← hE] at r1 r2 r3
    rw [erase_height] at r3
    cases o with
    | insert k v =>
      obtain ⟨T, hT, _⟩ := insert_balanced (cmp := cmp) r2 k v (hrefl k)
      refine wp_conseq (inplaceInsertP_spec hA hN (by omega) hT (erase_height A)) ?_
      rintro p h' ⟨t', h1, h2, h3, h4⟩
      refine ⟨t', h1, h2, ?_, h4⟩
      show _ = (RB.run cmp (.insert k v :: ops)).getD .nil
      rw [h3]; simp [RB.run, r1, hT]
    | delete k => exact ho.elim

end Verif.RBHeap
