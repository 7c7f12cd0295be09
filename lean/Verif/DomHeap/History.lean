import Verif.DomHeap.Inplace
import Verif.DomHeap.Delete
import Verif.DomHeap.Read
import Verif.DomTree.Closed
import Verif.Heap.Obj

/-! # Histories of domaintree calls on memory -/

namespace Verif.DomHeap
open Verif Verif.Heap Verif.Heap.Prog Verif.Heap.ATree Verif.RB Verif.RBHeap Verif.DLHeap Verif.Domain Verif.DomainText Verif.DomTree

variable {V : Type}

/-- The tree a chain starts from: the zero `Node` or a nil `*Node`. -/
def start0 : Bool → Option (Node V)
  | true => some .new
  | false => none

theorem start0_empty (b : Bool) : start0 (V := V) b = none ∨ start0 (V := V) b = some .new := by cases b <;> simp [start0]

/-- A copy-on-write call. -/
def cowP (f : Nat) : Op V → Ptr → Prog (DD V) Ptr
  | .insert d v, r => InsertP f r d v
  | .delete d, r => do let x ← DeleteP f r d; pure x.1
  | .deleteSub d, r => do let x ← DeleteSubdomainsP f r d; pure x.1
  | .inplace _ _, _ => .stop .panic

/-- An in-place call. -/
def inpP (f : Nat) : Op V → Ptr → Prog (DD V) Ptr
  | .inplace d v, r => do InplaceInsertP f r d v; pure r
  | _, _ => .stop .panic

/-- The name of a call. -/
def opName : Op V → Name
  | .insert d _ => d
  | .inplace d _ => d
  | .delete d => d
  | .deleteSub d => d

/-- The name comes from text. -/
def Named (o : Op V) : Prop := ∃ s, MakeNameFromString s = .ok (opName o)

/-- What a call stands for, computed. -/
def domOf : Op V → Option (DOp V)
  | .insert d v => d.labels.map (DOp.insert · v)
  | .inplace d v => d.labels.map (DOp.insert · v)
  | .delete d => d.labels.map .delete
  | .deleteSub d => d.labels.map .deleteSub

/-- What a chain of calls leaves stored. -/
def storedBy (l : List (Op V)) : DMap V := lastDom (l.filterMap domOf)

/-- The copy-on-write calls covered after a chain of calls: the name comes from text, and deletions are not of a stored name of
127 labels (these panic, `C35_delete_partial`). -/
def cowOk (l : List (Op V)) (o : Op V) : Prop :=
  Named o ∧ match o with
    | .insert _ _ => True
    | .inplace _ _ => False
    | .delete d => ∀ ls, d.labels = some ls → ls.length = 127 → storedBy l ls = none
    | .deleteSub d => ∀ ls, d.labels = some ls → ls.length = 127 → storedBy l ls = none

/-- What a call stands for, with in-place insertions marked. -/
def markOf (o : Op V) : Option (MOp V) := (domOf o).map fun p => (o.inPlace, p)

/-- The names a chain of calls has closed. -/
def closedBy (l : List (Op V)) : List Bytes → Prop := Closed (l.filterMap markOf)

/-- The in-place calls covered after a chain of calls: the name comes from text, the tree is not a nil `*Node` and no proper
ancestor of the name is closed (otherwise the call panics, `C34_panics_iff`). -/
def inpOk (st : Bool) (l : List (Op V)) (o : Op V) : Prop :=
  Named o ∧ match o with
    | .inplace d _ => (st = true ∨ ∃ e x, Op.insert e x ∈ l) ∧ ∀ ls, d.labels = some ls → ∀ q, q ≠ [] → q <+: ls → q ≠ ls → ¬ closedBy l q
    | _ => False

/-- domaintree as an implementation of histories. -/
def domImpl (st : Bool) (f : Nat) : OImpl (DD V) (Op V) Ptr where
  fresh := if st then newNodeP none none else pure none
  cow := cowP f
  inp := inpP f
  cowOk := cowOk
  inpOk := inpOk st
  Obj h r l F := (∀ o ∈ l, Named o) ∧ ∃ n, DomTree.run (start0 st) l = some n ∧ PRep l.length h 128 r n F

theorem named_opDom {o : Op V} (h : Named o) : ∃ p, OpDom o p ∧ domOf o = some p := by
  obtain ⟨s, hs⟩ := h
  obtain ⟨ls, hl⟩ := holds_of_parse hs
  have hp : Parsed (opName o) ls := ⟨⟨s, hs⟩, hl.labels⟩
  cases o with
  | insert d v => exact ⟨_, .insert hp, by show d.labels.map _ = _; rw [show d.labels = some ls from hl.labels]; rfl⟩
  | inplace d v => exact ⟨_, .inplace hp, by show d.labels.map _ = _; rw [show d.labels = some ls from hl.labels]; rfl⟩
  | delete d => exact ⟨_, .delete hp, by show d.labels.map _ = _; rw [show d.labels = some ls from hl.labels]; rfl⟩
  | deleteSub d => exact ⟨_, .deleteSub hp, by show d.labels.map _ = _; rw [show d.labels = some ls from hl.labels]; rfl⟩

theorem named_ops {l : List (Op V)} (h : ∀ o ∈ l, Named o) :
    ∃ ps : List (Op V × DOp V), ps.map Prod.fst = l ∧ (∀ p ∈ ps, OpDom p.1 p.2) ∧ ps.map Prod.snd = l.filterMap domOf ∧ marked ps = l.filterMap markOf := by
  induction l with
  | nil => exact ⟨[], rfl, by simp, rfl, rfl⟩
  | cons o l ih =>
    obtain ⟨ps, h1, h2, h3, h6⟩ := ih fun x hx => h x (by simp [hx])
    obtain ⟨p, h4, h5⟩ := named_opDom (h o (by simp))
    refine ⟨(o, p) :: ps, by simp [h1], ?_, by simp [h3, h5], by simp [← h6, markOf, h5, marked]⟩
    simp only [List.mem_cons, forall_eq_or_imp]
    exact ⟨h4, h2⟩

/-- The stored domains and the shape of the tree a chain of calls makes. -/
theorem run_stored {st : Bool} {l : List (Op V)} (h : ∀ o ∈ l, Named o) {n : Option (Node V)} (hr : DomTree.run (start0 st) l = some n) :
    WF (base n) ∧ ∀ q, valueAt (base n) q = storedBy l q := by
  obtain ⟨ps, rfl, h2, h3, _⟩ := named_ops h
  have := run_spec (start0_empty st) ps h2 hr
  rw [h3] at this
  exact this

/-- Covered calls do not panic. -/
theorem cow_some {st : Bool} {l : List (Op V)} (h : ∀ o ∈ l, Named o) {n : Option (Node V)} (hr : DomTree.run (start0 st) l = some n) {o : Op V} (ho : cowOk l o) :
    ∃ n', DomTree.step n o = some n' := by
  obtain ⟨h1, h2⟩ := run_stored h hr
  obtain ⟨hn, ho⟩ := ho
  obtain ⟨s, hs⟩ := hn
  obtain ⟨ls, hl⟩ := holds_of_parse hs
  have dead : ∀ (n0 : Node V), n = some n0 → ∀ m, nodeAt n0 ls = some m → ls.length = 127 → storedBy l ls ≠ none := by
    rintro n0 rfl m hm hlen
    simp only [base_some] at h1 h2
    have hlive : Live m := by
      rcases List.eq_nil_or_concat ls with rfl | ⟨ls', l, rfl⟩
      · simp at hlen
      · rw [List.concat_eq_append] at hm
        rw [nodeAt_append] at hm
        cases hk : nodeAt n0 ls' with
        | none => simp [hk] at hm
        | some k =>
          simp only [hk, Option.bind_some, nodeAt] at hm
          cases hg : DL.RawGet k.branches l with
          | none => simp [hg] at hm
          | some m' =>
            simp [hg] at hm; subst hm
            exact (h1.nodeAt hk).live hg
    obtain ⟨q, v, hv⟩ := live_value (h1.nodeAt hm) hlive
    rw [← valueAt_append hm, h2] at hv
    obtain ⟨ps, rfl, p2, p3, _⟩ := named_ops h
    rw [storedBy, ← p3] at hv ⊢
    obtain ⟨d', hd'⟩ := stored_parsed p2 hv
    have := hd'.holds.count
    have : q = [] := by
      cases q with
      | nil => rfl
      | cons a q => simp at this; omega
    subst this
    rw [List.append_nil] at hv
    rw [hv]; simp
  cases o with
  | insert d v =>
    obtain ⟨n1, e, _⟩ := insert_api h1 hl v
    exact ⟨_, e⟩
  | inplace d v => exact ho.elim
  | delete d =>
    cases n with
    | none => exact ⟨none, rfl⟩
    | some n =>
      rcases delete_api (by simpa using h1) hl with ⟨g1, g2⟩ | ⟨m, r, g1, g2, g3, g4, g5⟩ | ⟨m, g1, g2, g3⟩
      · exact ⟨_, by show (DomTree.Delete _ d).map _ = _; rw [show d = opName (.delete (V := V) d) from rfl, g2]; rfl⟩
      · exact ⟨_, by show (DomTree.Delete _ d).map _ = _; rw [show d = opName (.delete (V := V) d) from rfl, g3]; rfl⟩
      · exact (dead n rfl m g1 g2 (ho ls hl.labels g2)).elim
  | deleteSub d =>
    cases n with
    | none => exact ⟨none, rfl⟩
    | some n =>
      rcases deleteSub_api (by simpa using h1) hl with ⟨g1, g2⟩ | ⟨m, r, fl, g1, g2, g3, g4, g5⟩ | ⟨m, g1, g2, g3⟩
      · exact ⟨_, by show (DomTree.DeleteSubdomains _ d).map _ = _; rw [show d = opName (.deleteSub (V := V) d) from rfl, g2]; rfl⟩
      · exact ⟨_, by show (DomTree.DeleteSubdomains _ d).map _ = _; rw [show d = opName (.deleteSub (V := V) d) from rfl, g3]; rfl⟩
      · exact (dead n rfl m g1 g2 (ho ls hl.labels g2)).elim

/-- Exactly when an in-place insertion panics. -/
theorem inplace_iff {st : Bool} {l : List (Op V)} (h : ∀ o ∈ l, Named o) {n : Option (Node V)} (hr : DomTree.run (start0 st) l = some n) {d : Name} {x : V}
    (hd : Named (.inplace d x)) : DomTree.InplaceInsert n d x ≠ none ↔ inpOk st l (.inplace d x) := by
  obtain ⟨ps, rfl, h2, _, h4⟩ := named_ops h
  have hn := hd
  obtain ⟨s, hs⟩ := hd
  obtain ⟨ls, hl⟩ := holds_of_parse hs
  have hl : Holds d ls := hl
  rw [Ne, inplace_none_iff (start0_empty st) ps h2 hr hl x]
  have hst : start0 (V := V) st = none ↔ st = false := by cases st <;> simp [start0]
  simp only [inpOk, hn, true_and, hl.labels, Option.some.injEq, forall_eq', closedBy, ← h4, hst, not_or]
  refine and_congr ?_ ?_
  · cases st <;> simp
  · constructor
    · intro hq q q1 q2 q3 q4; exact hq ⟨q, q1, q2, q3, q4⟩
    · rintro hq ⟨q, q1, q2, q3, q4⟩; exact hq q q1 q2 q3 q4

theorem PRep.lt {m k : Nat} {h : Heap (DD V)} {p : Ptr} {n : Option (Node V)} {F : Addr → Prop} (hN : PRep m h k p n F) {x : Addr} (hx : F x) : x < h.next := by
  cases p <;> cases n
  · exact (hN x hx).elim
  · exact hN.elim
  · exact hN.elim
  · exact NRep.lt hN hx

theorem PRep.frame {m k : Nat} {h h' : Heap (DD V)} {p : Ptr} {n : Option (Node V)} {F : Addr → Prop} (hN : PRep m h k p n F) (hn : h.next ≤ h'.next)
    (hm : ∀ x, F x → h'.mem x = h.mem x) : PRep m h' k p n F := by
  cases p <;> cases n
  · exact hN
  · exact hN.elim
  · exact hN.elim
  · exact NRep.frame hN hn hm

theorem domImpl_lawful (st : Bool) {f n : Nat} (hf : 2 * n + 3 ≤ f) : (domImpl (V := V) st f).Lawful n where
  fresh_ok h := by
    cases st with
    | false => exact ⟨fun _ => False, ⟨by simp, none, rfl, fun _ => id⟩, fun _ => False.elim⟩
    | true => exact ⟨_, ⟨by simp, some .new, rfl, new_rep 0 127 h none⟩, fun x (hx : x = h.next) => hx ▸ Nat.le_refl _⟩
  lt := fun ⟨_, _, _, hT⟩ ha => hT.lt ha
  frame := fun ⟨h0, t, h1, hT⟩ hn hm => ⟨h0, t, h1, hT.frame hn hm⟩
  cow_ok l o r h F hl ho := fun ⟨h0, t, h1, hT⟩ => by
    obtain ⟨t', h3⟩ := cow_some h0 h1 ho
    have h2 : DomTree.run (start0 st) (o :: l) = some t' := by simp [DomTree.run, h1, h3]
    have hN : ∀ x ∈ o :: l, Named x := by
      intro x hx
      rcases List.mem_cons.1 hx with rfl | hx
      · exact ho.1
      · exact h0 x hx
    obtain ⟨⟨s, hs⟩, ho⟩ := ho
    obtain ⟨ls, hd⟩ := holds_of_parse hs
    have hk : ls.length < 128 := by have := hd.count; omega
    have hf' : 2 * l.length + 3 ≤ f := by omega
    have key : wp (fun a => h.next ≤ a) (cowP f o r) (fun r' h' => ∃ F', PRep (l.length + 1) h' 128 r' t' F' ∧ ∀ x, F' x → h.next ≤ x ∨ F x) h := by
      cases o with
      | insert d v => exact InsertP_spec (by have := tall_le l.length; omega) hT hd hk v h3
      | inplace d v => exact ho.elim
      | delete d =>
        simp only [DomTree.step, Option.map_eq_some_iff] at h3
        obtain ⟨⟨t1, b⟩, h3, rfl⟩ := h3
        unfold cowP
        rw [wp_bind]
        exact wp_conseq (DeleteP_spec (by have := tall_le l.length; omega) hT hd hk h3) fun _ _ q => q.2
      | deleteSub d =>
        simp only [DomTree.step, Option.map_eq_some_iff] at h3
        obtain ⟨⟨t1, b⟩, h3, rfl⟩ := h3
        unfold cowP
        rw [wp_bind]
        exact wp_conseq (DeleteSubdomainsP_spec (by have := tall_le l.length; omega) hT hd hk h3) fun _ _ q => q.2
    refine wp_conseq key ?_
    rintro r' h' ⟨F', q1, q2⟩
    exact ⟨F', ⟨hN, t', h2, q1⟩, q2⟩
  inp_ok l o r h F hl ho := fun ⟨h0, t, h1, hT⟩ => by
    have hN : ∀ x ∈ o :: l, Named x := by
      intro x hx
      rcases List.mem_cons.1 hx with rfl | hx
      · exact ho.1
      · exact h0 x hx
    obtain ⟨d, v, rfl⟩ : ∃ d v, o = .inplace d v := by
      cases o with
      | inplace d v => exact ⟨d, v, rfl⟩
      | _ => exact ho.2.elim
    obtain ⟨t', h3⟩ := Option.ne_none_iff_exists'.1 ((inplace_iff h0 h1 ho.1).2 ho)
    have h2 : DomTree.run (start0 st) (.inplace d v :: l) = some t' := by simpa [DomTree.run, h1, DomTree.step] using h3
    obtain ⟨⟨s, hs⟩, _⟩ := ho
    obtain ⟨ls, hd⟩ := holds_of_parse hs
    have hk : ls.length < 128 := by have := hd.count; omega
    have hf' : 2 * l.length + 3 ≤ f := by omega
    show wp _ (inpP f (.inplace d v) r) _ h
    unfold inpP
    rw [wp_bind]
    refine wp_conseq (InplaceInsertP_spec (by have := tall_le l.length; omega) hT hd hk v h3) ?_
    rintro r' h' ⟨F', q1, q2⟩
    exact ⟨F', ⟨hN, t', h2, q1⟩, q2⟩

end Verif.DomHeap
