import Verif.DLHeap.Rep
import Verif.Heap.Obj
import Verif.Props.Dltree

/-! # Histories of dltree calls on memory -/

namespace Verif.DLHeap
open Verif Verif.Heap Verif.Heap.Prog Verif.Heap.ATree Verif.RB Verif.RBHeap Verif.DL Verif.Domain Verif.Props

/-- Payload of a cell: a dltree/node.go:15-21 `node` or a dltree/dltree.go:6-9 `Tree`. -/
inductive LD (V : Type) where
  | rb (d : RD Bytes V)
  | tree

variable {V : Type}

/-- The memory of a program that uses dltree. -/
def lm : DLMem V (LD V) where
  kR := {
    inj := .rb
    prj
      | .rb d => some d
      | _ => none
    prj_inj _ := rfl
    inj_prj e d h := by cases e <;> simp at h; rw [h] }
  kT := {
    inj _ := .tree
    prj
      | .tree => some ()
      | _ => none
    prj_inj _ := rfl
    inj_prj e d h := by cases e <;> simp at h; rfl }
  sep _ := rfl

/-- The tree a chain starts from: `NewTree()` or a nil `*Tree`. dltree/dltree.go:17-20. -/
def start0 : Bool → Option (Tree V)
  | true => NewTree
  | false => none

section
variable [Inhabited V]

/-- A copy-on-write call. -/
def cowP (f : Nat) : DL.Op V → Ptr → Prog (LD V) Ptr
  | .insert k v, r => InsertP lm f r k v
  | .rawInsert k v, r => RawInsertP lm f r k v
  | .delete k, r => do let x ← DeleteP lm f r k; pure x.1
  | .rawDelete k, r => do let x ← RawDeleteP lm f r k; pure x.1

/-- An in-place call. -/
def inpP (f : Nat) : DL.Op V → Ptr → Prog (LD V) Ptr
  | .insert k v, r => do InplaceInsertP lm f r k v; pure r
  | .rawInsert k v, r => do RawInplaceInsertP lm f r k v; pure r
  | _, _ => .stop .panic

/-- The call is an insertion. -/
def IsIns : DL.Op V → Prop
  | .insert _ _ => True
  | .rawInsert _ _ => True
  | _ => False

/-- The calls covered: texts are well-formed labels (for the others see C28). -/
def dlCow (_ : List (DL.Op V)) (o : DL.Op V) : Prop := ∃ k, OpMeans o k

/-- The in-place calls covered: insertions of well-formed labels into trees that are not a nil `*Tree`. -/
def dlInp (st : Bool) (l : List (DL.Op V)) (o : DL.Op V) : Prop :=
  (∃ k, OpMeans o k) ∧ IsIns o ∧ (st = true ∨ ∃ p ∈ l, IsIns p)

/-- dltree as an implementation of histories. -/
def dlImpl (st : Bool) (f : Nat) : OImpl (LD V) (DL.Op V) Ptr where
  fresh := if st then newTreeP lm none else pure none
  cow := cowP f
  inp := inpP f
  cowOk := dlCow
  inpOk := dlInp st
  Obj h r l F := (∀ o ∈ l, ∃ k, OpMeans o k) ∧ ∃ A, LRep lm l.length h r A ∧ DL.run (start0 st) l = some (treeOf r A) ∧ ∀ x, F x ↔ LFoot r A x

theorem InsertP_eq {f : Nat} {t : Ptr} {s l : Bytes} {v : V} (h : labelOf s = some l) : InsertP (lm (V := V)) f t s v = RawInsertP lm f t l v := by
  unfold InsertP RawInsertP labelP
  rw [h]; rfl

theorem InplaceInsertP_eq {f : Nat} {t : Ptr} {s l : Bytes} {v : V} (h : labelOf s = some l) :
    InplaceInsertP (lm (V := V)) f t s v = RawInplaceInsertP lm f t l v := by
  unfold InplaceInsertP labelP
  rw [h]; rfl

theorem DeleteP_eq {f : Nat} {t : Ptr} {s l : Bytes} (h : labelOf s = some l) : DeleteP (lm (V := V)) f t s = RawDeleteP lm f t l := by
  unfold DeleteP labelP
  rw [h]
  by_cases e : t = none
  · simp [e, RawDeleteP]
  · simp only [e, if_false]; rfl

omit [Inhabited V] in
theorem GetP_eq {f : Nat} {t : Ptr} {s l : Bytes} (h : labelOf s = some l) : GetP (lm (V := V)) f t s = RawGetP lm f t l := by
  unfold GetP labelP
  rw [h]
  by_cases e : t = none
  · simp [e, RawGetP]
  · simp only [e, if_false]; rfl

/-- The tree is nil exactly when the chain started with nil and inserted nothing. -/
theorem run_nil {st : Bool} {l : List (DL.Op V)} {t : Option (Tree V)} (h : DL.run (start0 st) l = some t) :
    t = none ↔ st = false ∧ ∀ o ∈ l, ¬ IsIns o := by
  induction l generalizing t with
  | nil => cases st <;> simp [DL.run, start0, NewTree] at h <;> subst h <;> simp
  | cons o l ih =>
    simp only [DL.run, Option.bind_eq_some_iff] at h
    obtain ⟨t0, h0, h1⟩ := h
    have ih := ih h0
    simp only [List.mem_cons, forall_eq_or_imp]
    cases o with
    | insert k v =>
      simp only [DL.step, DL.Insert, RawInsert, Option.bind_eq_some_iff, Option.map_eq_some_iff] at h1
      obtain ⟨_, _, _, _, rfl⟩ := h1
      simp [IsIns]
    | rawInsert k v =>
      simp only [DL.step, RawInsert, Option.map_eq_some_iff] at h1
      obtain ⟨_, _, rfl⟩ := h1
      simp [IsIns]
    | delete k =>
      simp only [show ¬ IsIns (DL.Op.delete k : DL.Op V) from id, not_false_eq_true, true_and]
      rw [← ih]
      cases t0 with
      | none => simp [DL.step, DL.Delete] at h1; subst h1; simp
      | some t0 =>
        simp only [DL.step, DL.Delete, RawDelete, Option.map_eq_some_iff] at h1
        obtain ⟨_, ⟨_, _, rfl⟩, rfl⟩ := h1
        simp
    | rawDelete k =>
      simp only [show ¬ IsIns (DL.Op.rawDelete k : DL.Op V) from id, not_false_eq_true, true_and]
      rw [← ih]
      simp only [DL.step, Option.some.injEq] at h1
      subst h1
      cases t0 <;> simp [RawDelete]

theorem cowP_insert {m f : Nat} {h : Heap (LD V)} {r : Ptr} {A : ATree (RD Bytes V)} (hL : LRep lm m h r A) (hf : 2 * m + 3 ≤ f) (k : Bytes) (v : V) :
    wp (fun a => h.next ≤ a) (RawInsertP lm f r k v) (fun r' h' => ∃ A', LRep lm (m + 1) h' r' A' ∧
      RawInsert (treeOf r A) k v = some (treeOf r' A') ∧ ∀ x, LFoot r' A' x → h.next ≤ x ∨ LFoot r A x) h := by
  refine wp_conseq (RawInsertP_spec hL (by have := tall_le m; omega) k v) ?_
  rintro _ h' ⟨b, A', rfl, hb, h1, h2, h3⟩
  refine ⟨A', h1, by simp [RawInsert, hL.rootOf, h2], ?_⟩
  rintro x (e | hx)
  · cases e; exact .inl hb
  · exact (h3 x hx).imp id .inr

theorem cowP_delete {m f : Nat} {h : Heap (LD V)} {r : Ptr} {A : ATree (RD Bytes V)} (hL : LRep lm m h r A) (hf : m + 1 ≤ f) (k : Bytes) :
    wp (fun a => h.next ≤ a) (RawDeleteP lm f r k) (fun p h' => ∃ A', LRep lm m h' p.1 A' ∧
      RawDelete (treeOf r A) k = (treeOf p.1 A', p.2) ∧ ∀ x, LFoot p.1 A' x → h.next ≤ x ∨ LFoot r A x) h := by
  refine wp_conseq (RawDeleteP_spec hL (by have := tall_le m; omega) k) ?_
  rintro ⟨p, ok⟩ h' ⟨A', h1, h2, h3, h4, h5⟩
  simp only at h1 h2 h3 h4 h5
  refine ⟨A', h1, ?_, ?_⟩
  · cases r with
    | none =>
      have hA : A = .nil := hL.cell
      subst hA
      have := h2.1 rfl; subst this
      simp only [treeOf_none, RawDelete, Prod.mk.injEq, true_and]
      have : ok = false := congrArg Prod.snd h3
      exact this.symm
    | some b =>
      cases p with
      | none => simp at h2
      | some b' => simp [RawDelete, ← h3]
  · rintro x (e | hx)
    · exact .inl (h4 x e)
    · exact (h5 x hx).imp id .inr

theorem inpP_insert {m f : Nat} {h : Heap (LD V)} {b : Addr} {A : ATree (RD Bytes V)} (hL : LRep lm m h (some b) A) (hf : 2 * m + 3 ≤ f) (k : Bytes) (v : V) :
    wp (fun a => LFoot (some b) A a ∨ h.next ≤ a) (RawInplaceInsertP lm f (some b) k v) (fun _ h' => ∃ A', LRep lm (m + 1) h' (some b) A' ∧
      RawInsert (treeOf (some b) A) k v = some (treeOf (some b) A') ∧ ∀ x, LFoot (some b) A' x → h.next ≤ x ∨ LFoot (some b) A x) h := by
  refine wp_conseq (RawInplaceInsertP_spec hL (by have := tall_le m; omega) k v) ?_
  rintro _ h' ⟨A', h1, h2, h3⟩
  refine ⟨A', h1, by simp [RawInsert, DL.rootOf, h2], ?_⟩
  rintro x (e | hx)
  · exact .inr (.inl e)
  · exact (h3 x hx).imp id .inr

theorem dlImpl_lawful (st : Bool) {n f : Nat} (hf : 2 * n + 3 ≤ f) : (dlImpl (V := V) st f).Lawful n where
  fresh_ok h := by
    cases st with
    | false =>
      exact ⟨fun _ => False, ⟨by simp, .nil, LRep.nil _ _, rfl, by simp [LFoot]⟩, by simp⟩
    | true =>
      show wp _ (newTreeP lm none) _ h
      rw [wp_newTreeP]
      exact ⟨fun x => x = h.next, ⟨by simp, .nil, newTree_rep (A := .nil) trivial (by simp) balanced_nil List.Pairwise.nil (by simp [BTree.size]), rfl,
        by intro x; simp [LFoot, eq_comm]⟩, by rintro x rfl; exact Nat.le_refl _⟩
  lt := by
    rintro h r l F a ⟨_, A, hL, _, hF⟩ ha
    exact hL.lt ((hF a).1 ha)
  frame := by
    rintro h h' r l F ⟨h0, A, hL, h1, hF⟩ hn hm
    exact ⟨h0, A, hL.frame hn fun x hx => hm x ((hF x).2 hx), h1, hF⟩
  cow_ok l o r h F hl ho := by
    rintro ⟨h0, A, hL, h1, hF⟩
    obtain ⟨k, hk⟩ := ho
    have h0' : ∀ p ∈ o :: l, ∃ k, OpMeans p k := by
      simp only [List.mem_cons, forall_eq_or_imp]; exact ⟨⟨k, hk⟩, h0⟩
    have ins : ∀ (s : Bytes) (v : V), DL.step (treeOf r A) o = RawInsert (treeOf r A) s v →
        wp (fun a => h.next ≤ a) (RawInsertP lm f r s v) (fun r' h' => ∃ F', (dlImpl st f).Obj h' r' (o :: l) F' ∧ ∀ x, F' x → h.next ≤ x ∨ F x) h := by
      intro s v hs
      refine wp_conseq (cowP_insert hL (by omega) s v) ?_
      rintro r' h' ⟨A', a1, a2, a3⟩
      refine ⟨LFoot r' A', ⟨h0', A', a1, by simp [DL.run, h1, hs, a2], fun x => Iff.rfl⟩, fun x hx => (a3 x hx).imp id (hF x).2⟩
    have del : ∀ (s : Bytes), DL.step (treeOf r A) o = some (RawDelete (treeOf r A) s).1 →
        wp (fun a => h.next ≤ a) (do let x ← RawDeleteP lm f r s; pure x.1) (fun r' h' => ∃ F', (dlImpl st f).Obj h' r' (o :: l) F' ∧ ∀ x, F' x → h.next ≤ x ∨ F x) h := by
      intro s hs
      rw [wp_bind]
      refine wp_conseq (cowP_delete hL (by omega) s) ?_
      rintro ⟨r', ok⟩ h' ⟨A', a1, a2, a3⟩
      exact ⟨LFoot r' A', ⟨h0', A', a1.mono (by simp), by simp [DL.run, h1, hs, a2], fun x => Iff.rfl⟩, fun x hx => (a3 x hx).imp id (hF x).2⟩
    cases hk with
    | @insert s dl v hm =>
      show wp _ (InsertP lm f r s v) _ h
      rw [InsertP_eq hm.labelOf]
      exact ins dl v (by simp [DL.step, DL.Insert, hm.labelOf])
    | @rawInsert dl v => exact ins dl v rfl
    | @delete s dl hm =>
      show wp _ (do let x ← DeleteP lm f r s; pure x.1) _ h
      rw [DeleteP_eq hm.labelOf]
      refine del dl ?_
      cases treeOf r A <;> simp [DL.step, DL.Delete, hm.labelOf, RawDelete]
    | @rawDelete dl => exact del dl rfl
  inp_ok l o r h F hl ho := by
    rintro ⟨h0, A, hL, h1, hF⟩
    obtain ⟨⟨k, hk⟩, hi, hst⟩ := ho
    have h0' : ∀ p ∈ o :: l, ∃ k, OpMeans p k := by
      simp only [List.mem_cons, forall_eq_or_imp]; exact ⟨⟨k, hk⟩, h0⟩
    have hr : r ≠ none := by
      rintro rfl
      obtain ⟨e, hn⟩ := (run_nil h1).1 rfl
      rcases hst with e' | ⟨p, hp, hi⟩
      · rw [e] at e'; cases e'
      · exact hn p hp hi
    obtain ⟨b, rfl⟩ := Option.ne_none_iff_exists'.1 hr
    have ins : ∀ (s : Bytes) (v : V), DL.step (treeOf (some b) A) o = RawInsert (treeOf (some b) A) s v →
        wp (fun a => F a ∨ h.next ≤ a) (do RawInplaceInsertP lm f (some b) s v; pure (some b))
          (fun r' h' => ∃ F', (dlImpl st f).Obj h' r' (o :: l) F' ∧ ∀ x, F' x → h.next ≤ x ∨ F x) h := by
      intro s v hs
      rw [wp_bind]
      refine wp_mono (W := fun a => LFoot (some b) A a ∨ h.next ≤ a) (fun a ha => ha.imp (hF a).2 id) ?_ (inpP_insert hL (by omega) s v)
      rintro _ h' ⟨A', a1, a2, a3⟩
      exact ⟨LFoot (some b) A', ⟨h0', A', a1, by simp only [DL.run, h1, Option.bind_some, hs, a2], fun x => Iff.rfl⟩, fun x hx => (a3 x hx).imp id (hF x).2⟩
    cases hk with
    | @insert s dl v hm =>
      show wp _ (do InplaceInsertP lm f (some b) s v; pure (some b)) _ h
      rw [InplaceInsertP_eq hm.labelOf]
      exact ins dl v (by simp [DL.step, DL.Insert, hm.labelOf])
    | @rawInsert dl v => exact ins dl v rfl
    | delete => exact hi.elim
    | rawDelete => exact hi.elim

end

end Verif.DLHeap
