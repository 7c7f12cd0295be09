import Verif.Spec.DomClosed
import Verif.DomTree.Inplace

/-!
# The nodes without a branch tree

`InplaceInsert` panics exactly when it has to go below a node other than the root whose branch tree is nil.
-/

namespace Verif.DomTree
open Verif.Domain Verif.DomainText
variable {V : Type}

/-- There is a node at `q` and it has no branch tree. -/
def NilAt (n : Node V) (q : List Bytes) : Prop := ∃ m, nodeAt n q = some m ∧ m.branches = none

theorem nilAt_nil {n : Node V} : NilAt n [] ↔ n.branches = none := by
  constructor
  · rintro ⟨m, h, hm⟩; cases h; exact hm
  · intro h; exact ⟨n, rfl, h⟩

theorem nilAt_cons {n : Node V} {l : Bytes} {q : List Bytes} :
    NilAt n (l :: q) ↔ ∃ m, DL.RawGet n.branches l = some m ∧ NilAt m q := by
  unfold NilAt
  simp only [nodeAt]
  cases DL.RawGet n.branches l <;> simp

theorem nilAt_append {n m : Node V} {a : List Bytes} (h : nodeAt n a = some m) (b : List Bytes) :
    NilAt n (a ++ b) ↔ NilAt m b := by
  unfold NilAt; rw [nodeAt_append, h]; rfl

theorem not_nilAt {n : Node V} {a : List Bytes} (h : nodeAt n a = none) : ¬ NilAt n a := by
  rintro ⟨m, hm, _⟩; rw [h] at hm; cases hm

/-- There is a node exactly where something is stored at or below. -/
theorem nodeAt_none_iff {n : Node V} (h : WF n) {ls : List Bytes} (hls : ls ≠ []) :
    nodeAt n ls = none ↔ ∀ p, ls <+: p → valueAt n p = none := by
  constructor
  · rintro hn _ ⟨q, rfl⟩
    exact valueAt_of_nodeAt_none hn q
  · intro hp
    cases hm : nodeAt n ls with
    | none => rfl
    | some m =>
      exfalso
      have hlive : Live m := by
        obtain ⟨a, l, rfl⟩ : ∃ a l, ls = a ++ [l] := ⟨ls.dropLast, ls.getLast hls, (List.dropLast_concat_getLast hls).symm⟩
        rw [nodeAt_append] at hm
        cases hk : nodeAt n a with
        | none => rw [hk] at hm; cases hm
        | some k =>
          rw [hk] at hm
          simp only [Option.bind_some, nodeAt] at hm
          cases hg : DL.RawGet k.branches l with
          | none => rw [hg] at hm; cases hm
          | some m' =>
            rw [hg] at hm; cases hm
            exact (h.nodeAt hk).live hg
      obtain ⟨q, v, hv⟩ := live_value (h.nodeAt hm) hlive
      have := hp (ls ++ q) ⟨q, rfl⟩
      rw [valueAt_append hm] at this
      rw [this] at hv; cases hv

theorem rawGet_none_nil {n : Node V} (h : n.branches = none) (l : Bytes) : DL.RawGet n.branches l = none := by
  rw [h]; rfl

theorem insertL_nil {n n' : Node V} (h : WF n) {ls : List Bytes} (hs : Short ls) {v : V} (hi : insertL n ls v = some n')
    (q : List Bytes) : NilAt n' q ↔
      (q = ls ∧ (NilAt n q ∨ nodeAt n q = none)) ∨ (¬ q <+: ls ∧ NilAt n q) := by
  induction ls generalizing n n' q with
  | nil =>
    simp only [insertL] at hi
    cases hi
    cases q with
    | nil => simp [nilAt_nil, nodeAt]
    | cons a q => simp [nilAt_cons]
  | cons l ls ih =>
    have hs' : Short ls := fun x hx => hs x (by simp [hx])
    simp only [insertL] at hi
    have hwf : WF (nextNode n l) ∧ ∀ q, (NilAt (nextNode n l) q ∨ nodeAt (nextNode n l) q = none ↔ NilAt n (l :: q) ∨ nodeAt n (l :: q) = none)
        ∧ (q ≠ [] → (NilAt (nextNode n l) q ↔ NilAt n (l :: q))) := by
      unfold nextNode
      cases hg : DL.RawGet n.branches l with
      | none =>
        refine ⟨WF.new, fun q => ⟨?_, fun hq => ?_⟩⟩
        · have h1 : nodeAt n (l :: q) = none := by simp [nodeAt, hg]
          simp only [h1, or_true, iff_true]
          cases q with
          | nil => left; exact nilAt_nil.2 rfl
          | cons a q => right; rfl
        · cases q with
          | nil => exact absurd rfl hq
          | cons a q =>
            constructor
            · rw [nilAt_cons]; rintro ⟨m, hm, _⟩; cases hm
            · rw [nilAt_cons]; rintro ⟨m, hm, _⟩; rw [hg] at hm; cases hm
      | some m =>
        simp only [copy_some]
        refine ⟨h.sub hg, fun q => ⟨?_, fun _ => ?_⟩⟩
        · simp [nilAt_cons, nodeAt, hg]
        · simp [nilAt_cons, hg]
    cases hm : insertL (nextNode n l) ls v with
    | none => simp [hm] at hi
    | some m' =>
      simp only [hm, Option.bind_some] at hi
      obtain ⟨t', h1, h2, h3, h4⟩ := DL.rawInsert_ok h.ok l m'
      rw [h1] at hi
      cases hi
      cases q with
      | nil => simp [nilAt_nil]
      | cons a q =>
        rw [nilAt_cons, branches_mk]
        simp only [h3]
        by_cases ha : l = a
        · subst ha
          simp only [if_true, Option.some.injEq, exists_eq_left', List.cons.injEq, true_and, List.cons_prefix_cons]
          rw [ih hwf.1 hs' hm q, (hwf.2 q).1]
          by_cases hq : q = []
          · subst hq; simp
          · rw [(hwf.2 q).2 hq]
        · have ha' : ¬ a = l := fun h => ha h.symm
          simp [ha, ha', List.cons_prefix_cons, nilAt_cons]

theorem inplaceL_nil {n n' : Node V} (h : WF n) {ls : List Bytes} (hs : Short ls) {v : V} (hi : inplaceL n ls v = some n')
    (q : List Bytes) : NilAt n' q ↔ NilAt n q := by
  induction ls generalizing n n' q with
  | nil =>
    cases hi
    cases q with
    | nil => simp [nilAt_nil]
    | cons a q => simp [nilAt_cons]
  | cons l ls ih =>
    have hs' : Short ls := fun x hx => hs x (by simp [hx])
    obtain ⟨br, val⟩ := n
    rcases br with _ | t
    · simp [inplaceL] at hi
    · simp only [inplaceL, branches_mk, val_mk] at hi
      cases hg : DL.RawGet (some t) l with
      | some m =>
        simp only [hg] at hi
        cases hm : inplaceL m ls v with
        | none => simp [hm] at hi
        | some m' =>
          simp only [hm, Option.map_some, Option.some.injEq] at hi
          subst hi
          obtain ⟨k1, k2, k3⟩ := DL.updAt_ok (t := t) h.ok hg m'
          cases q with
          | nil => simp [nilAt_nil]
          | cons a q =>
            rw [nilAt_cons, nilAt_cons, branches_mk, branches_mk]
            simp only [k2]
            by_cases ha : l = a
            · subst ha
              simp only [if_true, hg, Option.some.injEq, exists_eq_left']
              exact ih (h.sub (n := .mk (some t) val) hg) hs' hm q
            · simp [ha]
      | none =>
        simp only [hg] at hi
        cases hm : inplaceL (.mk DL.NewTree none) ls v with
        | none => simp [hm] at hi
        | some m' =>
          simp only [hm, Option.bind_some] at hi
          obtain ⟨t', h1, h2, h3, h4⟩ := DL.rawInsert_ok (t := some t) h.ok l m'
          rw [h1] at hi
          cases hi
          cases q with
          | nil => simp [nilAt_nil]
          | cons a q =>
            rw [nilAt_cons, nilAt_cons, branches_mk, branches_mk]
            simp only [h3]
            by_cases ha : l = a
            · subst ha
              simp only [if_true, hg, Option.some.injEq, exists_eq_left', reduceCtorEq, false_and, exists_false, iff_false]
              rw [ih WF.newTree hs' hm q]
              cases q with
              | nil => simp [nilAt_nil, DL.NewTree]
              | cons b q => rw [nilAt_cons]; rintro ⟨m, hm, _⟩; cases hm
            · simp [ha]

theorem inplaceL_none {n : Node V} (h : WF n) {ls : List Bytes} (hs : Short ls) {v : V} :
    inplaceL n ls v = none ↔ ∃ q, q <+: ls ∧ q ≠ ls ∧ NilAt n q := by
  induction ls generalizing n with
  | nil =>
    simp only [inplaceL, reduceCtorEq, false_iff]
    rintro ⟨q, h1, h2, _⟩
    exact h2 (List.prefix_nil.1 h1)
  | cons l ls ih =>
    have hs' : Short ls := fun x hx => hs x (by simp [hx])
    obtain ⟨br, val⟩ := n
    rcases br with _ | t
    · simp only [inplaceL, branches_mk, true_iff]
      exact ⟨[], List.nil_prefix, by simp, nilAt_nil.2 rfl⟩
    · simp only [inplaceL, branches_mk, val_mk]
      cases hg : DL.RawGet (some t) l with
      | some m =>
        simp only [Option.map_eq_none_iff]
        rw [ih (h.sub (n := .mk (some t) val) hg) hs']
        constructor
        · rintro ⟨q, h1, h2, h3⟩
          exact ⟨l :: q, List.cons_prefix_cons.2 ⟨rfl, h1⟩, by simpa using h2, nilAt_cons.2 ⟨m, hg, h3⟩⟩
        · rintro ⟨q, h1, h2, h3⟩
          cases q with
          | nil => have := nilAt_nil.1 h3; cases this
          | cons a q =>
            obtain ⟨rfl, h1'⟩ := List.cons_prefix_cons.1 h1
            obtain ⟨m', hm', h3⟩ := nilAt_cons.1 h3
            rw [branches_mk, hg] at hm'; cases hm'
            exact ⟨q, h1', by simpa using h2, h3⟩
      | none =>
        obtain ⟨m', e1, e2⟩ := inplaceL_full (v := v) WF.newTree (.mk (by intro a k hk; cases hk)) ls hs'
        obtain ⟨t', e3, _⟩ := DL.rawInsert_ok (t := some t) h.ok l m'
        simp only [e1, Option.bind_some, e3, Option.map_some, reduceCtorEq, false_iff]
        rintro ⟨q, h1, h2, h3⟩
        cases q with
        | nil => have := nilAt_nil.1 h3; cases this
        | cons a q =>
          obtain ⟨rfl, h1'⟩ := List.cons_prefix_cons.1 h1
          obtain ⟨m', hm', h3⟩ := nilAt_cons.1 h3
          rw [branches_mk, hg] at hm'; cases hm'

/-- Removing or replacing a branch. -/
theorem delBranch_nil {n : Node V} (h : WF n) (l : Bytes) (v : Option V) (hb : n.branches ≠ none) :
    (DL.RawDelete n.branches l).1 ≠ none ∧
    ∀ a q, NilAt (.mk (DL.RawDelete n.branches l).1 v) (a :: q) ↔ l ≠ a ∧ NilAt n (a :: q) := by
  refine ⟨?_, fun a q => ?_⟩
  · cases hn : n.branches with
    | none => exact absurd hn hb
    | some t => simp [DL.RawDelete]
  · rw [nilAt_cons, nilAt_cons, branches_mk]
    simp only [(DL.rawDelete_ok h.ok l).2]
    by_cases ha : l = a <;> simp [ha]

theorem setBranch_nil {n m : Node V} {br : Option (DL.Tree (Node V))} (h : WF n) {l : Bytes} (v : Option V)
    (hi : DL.RawInsert n.branches l m = some br) :
    br ≠ none ∧ ∀ a q, NilAt (.mk br v) (a :: q) ↔ if l = a then NilAt m q else NilAt n (a :: q) := by
  obtain ⟨t', h1, h2, h3, h4⟩ := DL.rawInsert_ok h.ok l m
  rw [h1] at hi; cases hi
  refine ⟨by simp, fun a q => ?_⟩
  rw [nilAt_cons, nilAt_cons, branches_mk]
  simp only [h3]
  by_cases ha : l = a <;> simp [ha]

theorem empty_nil {n : Node V} (h : WF n) (he : DL.IsEmpty n.branches = true) (hb : n.branches ≠ none) (q : List Bytes) : ¬ NilAt n q := by
  cases q with
  | nil => rw [nilAt_nil]; exact hb
  | cons a q => rw [nilAt_cons, (DL.isEmpty_iff h.ok).1 he]; simp

theorem copyBranch_nil {root p p' r : Node V} {labs : List Bytes} {nodes : List (Node V)} (hr : WF root)
    (h : Chain root labs p nodes) (hp : WF p') (hb : p.branches ≠ none) (hb' : p'.branches ≠ none)
    (hc : copyBranch p' labs nodes = some r) :
    (∀ q, NilAt r (labs.reverse ++ q) ↔ NilAt p' q) ∧ ∀ q, ¬ labs.reverse <+: q → (NilAt r q ↔ NilAt root q) := by
  induction h generalizing p' with
  | root => cases hc; exact ⟨fun q => Iff.rfl, fun q hq => absurd List.nil_prefix hq⟩
  | @step labs p m nodes l h hm ih =>
    have hpw := hr.nodeAt h.nodeAt
    have hpb : p.branches ≠ none := by intro h'; rw [h'] at hm; cases hm
    have key : ∃ p'', copyBranch p'' labs nodes = some r ∧ WF p'' ∧ p''.branches ≠ none ∧
        ∀ a q, NilAt p'' (a :: q) ↔ if l = a then NilAt p' q else NilAt p (a :: q) := by
      rw [copyBranch] at hc
      split at hc
      · rename_i hd
        simp only [Bool.and_eq_true] at hd
        obtain ⟨d1, d2⟩ := delBranch_nil hpw l p.val hpb
        refine ⟨_, hc, (delBranch hpw l).1, d1, fun a q => ?_⟩
        rw [d2]
        by_cases ha : l = a
        · simp [ha, empty_nil hp hd.2 hb' q]
        · simp [ha]
      · rename_i hd
        cases hi : DL.RawInsert p.branches l p' with
        | none => simp [hi] at hc
        | some br =>
          simp only [hi, Option.bind_some] at hc
          obtain ⟨d1, d2⟩ := setBranch_nil hpw p.val hi
          have hlive : Live p' := by
            unfold Live
            cases hv : p'.val with
            | some v => exact .inl rfl
            | none => right; simp [hv] at hd; exact hd
          obtain ⟨br', e1, e2, _⟩ := setBranch hpw hp hlive l (hpw.len hm)
          rw [hi] at e1; cases e1
          exact ⟨_, hc, e2, d1, d2⟩
    obtain ⟨p'', h1, h2, h3, h4⟩ := key
    obtain ⟨h5, h6⟩ := ih h2 hpb h3 h1
    refine ⟨fun q => ?_, fun q hq => ?_⟩
    · rw [List.reverse_cons, List.append_assoc, h5]
      simp [h4]
    · by_cases hpre : labs.reverse <+: q
      · obtain ⟨q', rfl⟩ := hpre
        rw [h5, nilAt_append h.nodeAt]
        cases q' with
        | nil => rw [nilAt_nil, nilAt_nil]; simp [h3, hpb]
        | cons a q' =>
          rw [h4]
          have : ¬ l = a := by
            rintro rfl; apply hq
            rw [List.reverse_cons]; exact ⟨q', by simp⟩
          simp [this]
      · exact h6 q hpre

theorem delete_nil {n : Node V} (hw : WF n) {d : Name} {ls : List Bytes} (hd : Holds d ls) {r : Option (Node V)} {f : Bool}
    (hr : Delete (some n) d = some (r, f)) {q : List Bytes} (hq : q ≠ []) : NilAt (base r) q ↔ q ≠ ls ∧ NilAt n q := by
  unfold Delete at hr
  simp only at hr
  rcases getBranch_api (n := n) hd with ⟨h1, h2⟩ | ⟨m, ns, h1, h2, h3, h4⟩ | ⟨m, h1, h2, h3⟩
  · rw [h2] at hr; cases hr
    rw [base_some]
    exact ⟨fun h => ⟨by rintro rfl; exact not_nilAt h1 h, h⟩, fun h => h.2⟩
  · rw [h3] at hr
    simp only at hr
    split at hr
    · rename_i hv
      cases hr
      rw [base_some]
      refine ⟨fun h => ⟨?_, h⟩, fun h => h.2⟩
      rintro rfl
      -- a node without a value has branches
      have hv' : m.val = none := by cases hm : m.val <;> simp_all
      have hne : ¬ ∀ p, q <+: p → valueAt n p = none := by
        rw [← nodeAt_none_iff hw hq, h1]; simp
      apply hne
      rintro _ ⟨p, rfl⟩
      rw [valueAt_append h1]
      obtain ⟨m', hm', hb⟩ := h
      rw [h1] at hm'; cases hm'
      cases p with
      | nil => exact hv'
      | cons a p => rw [valueAt_cons, rawGet_none_nil hb]; rfl
    · split at hr
      · rename_i label labs p nodes hl
        rw [hl] at h4
        have hls : ls = labs.reverse ++ [label] := by
          have := congrArg List.reverse hl; simpa using this
        cases h4 with
        | step hch hpm =>
          have hpw := hw.nodeAt hch.nodeAt
          have hpb : p.branches ≠ none := by intro h'; rw [h'] at hpm; cases hpm
          have key : ∃ p'' r', copyBranch p'' labs nodes = some r' ∧ r = some r' ∧ WF p'' ∧ p''.branches ≠ none ∧
              ∀ a q, NilAt p'' (a :: q) ↔ (if label = a then q ≠ [] ∧ NilAt m q else NilAt p (a :: q)) := by
            split at hr
            · rename_i he
              obtain ⟨d1, d2⟩ := delBranch_nil hpw label p.val hpb
              cases hc : copyBranch (Node.mk (DL.RawDelete p.branches label).1 p.val) labs nodes with
              | none => simp [hc] at hr
              | some r' =>
                simp [hc] at hr
                refine ⟨_, r', hc, hr.1.symm, (delBranch hpw label).1, d1, fun a q => ?_⟩
                rw [d2]
                by_cases ha : label = a
                · simp only [ha, ne_eq, not_true, false_and, if_true, false_iff, not_and]
                  intro hq
                  cases q with
                  | nil => exact absurd rfl hq
                  | cons b q => rw [nilAt_cons, (DL.isEmpty_iff (hpw.sub hpm).ok).1 he]; simp
                · simp [ha]
            · rename_i he
              cases hi : DL.RawInsert p.branches label (Node.mk m.branches none) with
              | none => simp [hi] at hr
              | some br =>
                simp only [hi, Option.bind_some] at hr
                obtain ⟨d1, d2⟩ := setBranch_nil hpw p.val hi
                cases hc : copyBranch (Node.mk br p.val) labs nodes with
                | none => simp [hc] at hr
                | some r' =>
                  simp [hc] at hr
                  have hmw : WF (Node.mk m.branches (none : Option V)) := by
                    have := hpw.sub hpm
                    cases m; exact this.setVal
                  obtain ⟨br', e1, e2, _⟩ := setBranch hpw hmw (.inr (by simpa using he)) label (hpw.len hpm)
                  rw [hi] at e1; cases e1
                  refine ⟨_, r', hc, hr.1.symm, e2, d1, fun a q => ?_⟩
                  rw [d2]
                  by_cases ha : label = a
                  · simp only [ha, if_true]
                    cases q with
                    | nil =>
                      simp only [nilAt_nil, branches_mk, ne_eq, not_true, false_and, iff_false]
                      intro h'; apply he; rw [h']; rfl
                    | cons b q => simp [nilAt_cons]
                  · simp [ha]
          obtain ⟨p'', r', k1, rfl, k3, k4, k5⟩ := key
          obtain ⟨c1, c2⟩ := copyBranch_nil hw hch k3 hpb k4 k1
          rw [base_some, hls]
          by_cases hpre : labs.reverse <+: q
          · obtain ⟨q', rfl⟩ := hpre
            rw [c1, nilAt_append hch.nodeAt]
            cases q' with
            | nil => simp [nilAt_nil, k4, hpb]
            | cons a q' =>
              rw [k5]
              by_cases ha : label = a
              · subst ha; simp [nilAt_cons, hpm]
              · have : ¬ a = label := fun h => ha h.symm
                simp [ha, this]
          · rw [c2 q hpre]
            have : q ≠ labs.reverse ++ [label] := by rintro rfl; exact hpre ⟨_, rfl⟩
            simp [this]
      · rename_i hl
        have hls : ls = [] := by
          cases hlr : ls.reverse with
          | nil => simpa using hlr
          | cons a b =>
            rw [hlr] at h4 hl
            cases h4 with
            | step hch hpm => exact absurd rfl (hl _ _ _ _ rfl)
        subst hls
        cases h1
        obtain ⟨a, q, rfl⟩ : ∃ a q', q = a :: q' := by
          cases q with
          | nil => exact absurd rfl hq
          | cons a q => exact ⟨a, q, rfl⟩
        split at hr
        · rename_i he
          cases hr
          rw [base_some, nilAt_cons, nilAt_cons, (DL.isEmpty_iff hw.ok).1 he]
          simp [Node.new, DL.RawGet]
        · cases hr
          rw [base_some, nilAt_cons, nilAt_cons]
          simp
  · rw [h3] at hr; cases hr

theorem deleteSub_nil {n : Node V} (hw : WF n) {d : Name} {ls : List Bytes} (hd : Holds d ls) {r : Option (Node V)} {f : Bool}
    (hr : DeleteSubdomains (some n) d = some (r, f)) {q : List Bytes} (hq : q ≠ []) : NilAt (base r) q ↔ ¬ ls <+: q ∧ NilAt n q := by
  unfold DeleteSubdomains at hr
  simp only at hr
  rcases getBranch_api (n := n) hd with ⟨h1, h2⟩ | ⟨m, ns, h1, h2, h3, h4⟩ | ⟨m, h1, h2, h3⟩
  · rw [h2] at hr; cases hr
    rw [base_some]
    refine ⟨fun h => ⟨?_, h⟩, fun h => h.2⟩
    rintro ⟨q', rfl⟩
    refine not_nilAt ?_ h
    rw [nodeAt_append, h1]; rfl
  · rw [h3] at hr
    simp only at hr
    split at hr
    · rename_i he
      cases hr
      rw [base_some]
      refine ⟨fun h => ?_, fun h => h.2⟩
      simp only [Bool.and_eq_true] at he
      exfalso
      cases q with
      | nil => exact hq rfl
      | cons a q =>
        rw [nilAt_cons, (DL.isEmpty_iff hw.ok).1 he.2] at h
        simp at h
    · split at hr
      · rename_i label labs p nodes hl
        rw [hl] at h4
        have hls : ls = labs.reverse ++ [label] := by
          have := congrArg List.reverse hl; simpa using this
        cases h4 with
        | step hch hpm =>
          have hpw := hw.nodeAt hch.nodeAt
          have hpb : p.branches ≠ none := by intro h'; rw [h'] at hpm; cases hpm
          obtain ⟨d1, d2⟩ := delBranch_nil hpw label p.val hpb
          cases hc : copyBranch (Node.mk (DL.RawDelete p.branches label).1 p.val) labs nodes with
          | none => simp [hc] at hr
          | some r' =>
            simp [hc] at hr
            obtain ⟨rfl, _⟩ := hr
            obtain ⟨c1, c2⟩ := copyBranch_nil hw hch (delBranch hpw label).1 hpb d1 hc
            rw [base_some, hls]
            by_cases hpre : labs.reverse <+: q
            · obtain ⟨q', rfl⟩ := hpre
              rw [c1, nilAt_append hch.nodeAt, List.prefix_append_right_inj]
              cases q' with
              | nil => simp [nilAt_nil, d1, hpb]
              | cons a q' =>
                rw [d2]
                simp
            · rw [c2 q hpre]
              have : ¬ (labs.reverse ++ [label]) <+: q := fun h => hpre ((List.prefix_append _ _).trans h)
              simp [this]
      · rename_i hl
        have hls : ls = [] := by
          cases hlr : ls.reverse with
          | nil => simpa using hlr
          | cons a b =>
            rw [hlr] at h4 hl
            cases h4 with
            | step hch hpm => exact absurd rfl (hl _ _ _ _ rfl)
        subst hls
        cases hr
        simp only [base_some, List.nil_prefix, not_true, false_and, iff_false]
        cases q with
        | nil => exact absurd rfl hq
        | cons a q => rw [nilAt_cons]; simp [Node.new, DL.RawGet]
  · rw [h3] at hr; cases hr

/-- Whether a call inserts in place. -/
def Op.inPlace : Op V → Bool
  | .inplace _ _ => true
  | _ => false

/-- The calls of a history as seen by `Closed`. -/
def marked (ops : List (Op V × DOp V)) : List (MOp V) := ops.map fun p => (p.1.inPlace, p.2)

theorem marked_snd (ops : List (Op V × DOp V)) : (marked ops).map Prod.snd = ops.map Prod.snd := by
  simp [marked, Function.comp_def]

theorem new_nil {q : List Bytes} (hq : q ≠ []) : ¬ NilAt (.new : Node V) q := by
  cases q with
  | nil => exact absurd rfl hq
  | cons a q => rw [nilAt_cons]; rintro ⟨m, hm, _⟩; cases hm

theorem inplace_nil {n n' : Option (Node V)} (h : WF (base n)) {d : Name} {ls : List Bytes} (hd : Holds d ls) {v : V}
    (hi : InplaceInsert n d v = some n') {q : List Bytes} (hq : q ≠ []) : NilAt (base n') q ↔ NilAt (base n) q := by
  cases n with
  | none => cases hi
  | some n =>
    unfold InplaceInsert at hi
    simp only [hd.labelsOf, Option.bind_some] at hi
    obtain ⟨br, val⟩ := n
    rw [base_some] at h ⊢
    rcases br with _ | t
    · simp only [branches_mk, val_mk] at hi
      cases hx : inplaceL (.mk DL.NewTree val) ls v with
      | none => simp [hx] at hi
      | some k =>
        simp only [hx, Option.map_some, Option.some.injEq] at hi
        subst hi
        rw [base_some, inplaceL_nil (WF.newTree.setVal (v' := val)) hd.short hx]
        cases q with
        | nil => exact absurd rfl hq
        | cons a q => simp [nilAt_cons, DL.NewTree, DL.RawGet, RB.get]
    · simp only [branches_mk] at hi
      cases hx : inplaceL (.mk (some t) val) ls v with
      | none => simp [hx] at hi
      | some k =>
        simp only [hx, Option.map_some, Option.some.injEq] at hi
        subst hi
        rw [base_some]
        exact inplaceL_nil h hd.short hx q

theorem inplace_none {n : Node V} (h : WF n) {d : Name} {ls : List Bytes} (hd : Holds d ls) {v : V} :
    InplaceInsert (some n) d v = none ↔ ∃ q, q ≠ [] ∧ q <+: ls ∧ q ≠ ls ∧ NilAt n q := by
  unfold InplaceInsert
  simp only [hd.labelsOf, Option.bind_some]
  obtain ⟨br, val⟩ := n
  rcases br with _ | t
  · simp only [branches_mk, val_mk, Option.map_eq_none_iff]
    rw [inplaceL_none (WF.newTree.setVal (v' := val)) hd.short]
    constructor
    · rintro ⟨q, h1, h2, h3⟩
      cases q with
      | nil => have := nilAt_nil.1 h3; cases this
      | cons a q => obtain ⟨m, hm, _⟩ := nilAt_cons.1 h3; cases hm
    · rintro ⟨q, h0, h1, h2, h3⟩
      cases q with
      | nil => exact absurd rfl h0
      | cons a q => obtain ⟨m, hm, _⟩ := nilAt_cons.1 h3; cases hm
  · simp only [branches_mk, Option.map_eq_none_iff]
    rw [inplaceL_none h hd.short]
    constructor
    · rintro ⟨q, h1, h2, h3⟩
      refine ⟨q, ?_, h1, h2, h3⟩
      rintro rfl
      have := nilAt_nil.1 h3; cases this
    · rintro ⟨q, _, h⟩; exact ⟨q, h⟩

theorem step_nil {n n' : Option (Node V)} {ops : List (Op V × DOp V)} (h : WF (base n))
    (hm : ∀ q, valueAt (base n) q = lastDom (ops.map Prod.snd) q) (hn : ∀ q, q ≠ [] → (NilAt (base n) q ↔ Closed (marked ops) q))
    {op : Op V} {o : DOp V} (ho : OpDom op o) (hs : step n op = some n') :
    ∀ q, q ≠ [] → (NilAt (base n') q ↔ Closed (marked ((op, o) :: ops)) q) := by
  intro q hq
  cases ho with
  | insert hp =>
    rename_i d ls v
    have hd := hp.holds
    obtain ⟨n1, h1, h2, h3⟩ := insert_api h hd v
    simp only [step, h1] at hs; cases hs
    have hi : insertL (base n) ls v = some n1 := by
      unfold Insert at h1
      simp only [hd.labelsOf, Option.bind_some] at h1
      rw [show copy n = base n from rfl] at h1
      cases hx : insertL (base n) ls v with
      | none => simp [hx] at h1
      | some k => simp [hx] at h1; rw [h1]
    rw [base_some, insertL_nil h hd.short hi]
    change _ ↔ Closed ((false, .insert ls v) :: marked ops) q
    simp only [Closed]
    rw [marked_snd, hn q hq]
    by_cases hql : q = ls
    · subst hql
      simp only [true_and, nodeAt_none_iff h hq, hm]
    · simp [hql]
  | inplace hp =>
    rw [inplace_nil h hp.holds hs hq, hn q hq]
    simp [marked, Op.inPlace, Closed]
  | delete hp =>
    rename_i d ls
    change _ ↔ Closed ((false, .delete ls) :: marked ops) q
    simp only [Closed]
    rw [← hn q hq]
    cases n with
    | none =>
      simp only [step, Delete] at hs; cases hs
      simp [new_nil hq]
    | some n =>
      simp only [step] at hs
      cases hx : Delete (some n) d with
      | none => simp [hx] at hs
      | some r =>
        obtain ⟨r, f⟩ := r
        simp [hx] at hs; subst hs
        rw [base_some] at h ⊢
        exact delete_nil h hp.holds hx hq
  | deleteSub hp =>
    rename_i d ls
    change _ ↔ Closed ((false, .deleteSub ls) :: marked ops) q
    simp only [Closed]
    rw [← hn q hq]
    cases n with
    | none =>
      simp only [step, DeleteSubdomains] at hs; cases hs
      simp [new_nil hq]
    | some n =>
      simp only [step] at hs
      cases hx : DeleteSubdomains (some n) d with
      | none => simp [hx] at hs
      | some r =>
        obtain ⟨r, f⟩ := r
        simp [hx] at hs; subst hs
        rw [base_some] at h ⊢
        exact deleteSub_nil h hp.holds hx hq

theorem run_nil {n0 : Option (Node V)} (h0 : n0 = none ∨ n0 = some .new) (ops : List (Op V × DOp V))
    (h : ∀ p ∈ ops, OpDom p.1 p.2) {n : Option (Node V)} (hr : run n0 (ops.map Prod.fst) = some n) :
    ∀ q, q ≠ [] → (NilAt (base n) q ↔ Closed (marked ops) q) := by
  induction ops generalizing n with
  | nil =>
    cases hr
    rw [base_new h0]
    intro q hq
    simp [new_nil hq, marked, Closed]
  | cons p ops ih =>
    obtain ⟨op, o⟩ := p
    simp only [List.map_cons, run] at hr
    cases hn : run n0 (ops.map Prod.fst) with
    | none => simp [hn] at hr
    | some n1 =>
      rw [hn] at hr
      obtain ⟨h1, h2⟩ := run_spec h0 ops (fun x hx => h x (by simp [hx])) hn
      exact step_nil h1 h2 (ih (fun x hx => h x (by simp [hx])) hn) (h (op, o) (by simp)) hr

theorem exists_ops (ops : List (Op V)) (hw : ∀ op ∈ ops, ∃ o, OpDom op o) :
    ∃ ps : List (Op V × DOp V), ps.map Prod.fst = ops ∧ ∀ p ∈ ps, OpDom p.1 p.2 := by
  induction ops with
  | nil => exact ⟨[], rfl, by simp⟩
  | cons op ops ih =>
    obtain ⟨ps, h1, h2⟩ := ih fun x hx => hw x (by simp [hx])
    obtain ⟨o, ho⟩ := hw op (by simp)
    refine ⟨(op, o) :: ps, by simp [h1], ?_⟩
    intro p hp
    rcases List.mem_cons.1 hp with rfl | hp
    · exact ho
    · exact h2 p hp

/-- The tree is nil exactly when it started so and nothing was inserted. -/
theorem run_isNone {n0 : Option (Node V)} (ops : List (Op V)) {n : Option (Node V)} (hr : run n0 ops = some n)
    (hw : ∀ op ∈ ops, ∃ o, OpDom op o) (h0 : n0 = none ∨ n0 = some .new) :
    n = none ↔ n0 = none ∧ ∀ d v, Op.insert d v ∉ ops := by
  induction ops generalizing n with
  | nil => cases hr; simp
  | cons op ops ih =>
    simp only [run] at hr
    cases hn : run n0 ops with
    | none => simp [hn] at hr
    | some n1 =>
      rw [hn] at hr
      have ih := ih hn (fun x hx => hw x (by simp [hx]))
      simp only [Option.bind_some] at hr
      cases op with
      | insert d v =>
        simp only [step, Insert] at hr
        have : n ≠ none := by
          rintro rfl
          cases hl : labelsOf d with
          | none => simp [hl] at hr
          | some ls =>
            simp only [hl, Option.bind_some] at hr
            cases hx : insertL (copy n1) ls v <;> simp [hx] at hr
        simp only [this, false_iff, not_and]
        intro _ h; exact h d v (by simp)
      | inplace d v =>
        cases n1 with
        | none => cases hr
        | some k =>
          have hne : n ≠ none := by
            rintro rfl
            simp only [step, InplaceInsert] at hr
            cases hl : labelsOf d with
            | none => simp [hl] at hr
            | some ls =>
              simp only [hl, Option.bind_some] at hr
              simp at hr
          simp only [reduceCtorEq, false_iff] at ih
          simp only [hne, false_iff]
          rintro ⟨a, b⟩
          exact ih ⟨a, fun d v hm => b d v (by simp [hm])⟩
      | delete d =>
        have key : n = none ↔ n1 = none := by
          cases n1 with
          | none => simp only [step, Delete] at hr; cases hr; simp
          | some k =>
            obtain ⟨o, ho⟩ := hw (.delete d) (by simp)
            cases ho with
            | delete hp =>
              have hps : ∃ ps : List (Op V × DOp V), ps.map Prod.fst = ops ∧ ∀ p ∈ ps, OpDom p.1 p.2 := by
                exact exists_ops ops (fun x hx => hw x (by simp [hx]))
              obtain ⟨ps, rfl, hps⟩ := hps
              have hwf := (run_spec h0 ps hps hn).1
              rw [base_some] at hwf
              simp only [step] at hr
              rcases delete_api hwf hp.holds with ⟨_, h2⟩ | ⟨_, r, _, _, h2, _⟩ | ⟨_, _, _, h2⟩ <;>
                rw [h2] at hr <;> cases hr <;> simp
        rw [key, ih]; simp
      | deleteSub d =>
        have key : n = none ↔ n1 = none := by
          cases n1 with
          | none => simp only [step, DeleteSubdomains] at hr; cases hr; simp
          | some k =>
            obtain ⟨o, ho⟩ := hw (.deleteSub d) (by simp)
            cases ho with
            | deleteSub hp =>
              have hps : ∃ ps : List (Op V × DOp V), ps.map Prod.fst = ops ∧ ∀ p ∈ ps, OpDom p.1 p.2 := by
                exact exists_ops ops (fun x hx => hw x (by simp [hx]))
              obtain ⟨ps, rfl, hps⟩ := hps
              have hwf := (run_spec h0 ps hps hn).1
              rw [base_some] at hwf
              simp only [step] at hr
              rcases deleteSub_api hwf hp.holds with ⟨_, h2⟩ | ⟨_, r, _, _, _, h2, _⟩ | ⟨_, _, _, h2⟩ <;>
                rw [h2] at hr <;> cases hr <;> simp
        rw [key, ih]; simp

/-- The exact condition for `InplaceInsert` to panic. -/
theorem inplace_none_iff {n0 : Option (Node V)} (h0 : n0 = none ∨ n0 = some .new) (ops : List (Op V × DOp V))
    (h : ∀ p ∈ ops, OpDom p.1 p.2) {n : Option (Node V)} (hr : run n0 (ops.map Prod.fst) = some n) {d : Name} {ls : List Bytes}
    (hd : Holds d ls) (v : V) :
    InplaceInsert n d v = none ↔
      (n0 = none ∧ ∀ d v, Op.insert d v ∉ ops.map Prod.fst) ∨ ∃ q, q ≠ [] ∧ q <+: ls ∧ q ≠ ls ∧ Closed (marked ops) q := by
  have h1 := (run_spec h0 ops h hr).1
  have h2 := run_nil h0 ops h hr
  have h3 := run_isNone _ hr (by
    intro op hop
    obtain ⟨p, hp, rfl⟩ := List.mem_map.1 hop
    exact ⟨p.2, h p hp⟩) h0
  rw [← h3]
  cases n with
  | none => simp [InplaceInsert]
  | some n =>
    rw [base_some] at h1 h2
    rw [inplace_none h1 hd]
    simp only [reduceCtorEq, false_or]
    constructor
    · rintro ⟨q, a, b, c, e⟩; exact ⟨q, a, b, c, (h2 q a).1 e⟩
    · rintro ⟨q, a, b, c, e⟩; exact ⟨q, a, b, c, (h2 q a).2 e⟩

end Verif.DomTree
