import Verif.DomTree.Model
import Verif.DL.Step
import Verif.Spec.DomMap

namespace Verif.DomTree
open Verif.Domain Verif.DomainText
variable {V : Type}

@[simp] theorem branches_mk (b : Option (DL.Tree (Node V))) (v : Option V) : (Node.mk b v).branches = b := rfl
@[simp] theorem val_mk (b : Option (DL.Tree (Node V))) (v : Option V) : (Node.mk b v).val = v := rfl

/-- Has a value or branches. -/
def Live (n : Node V) : Prop := n.val.isSome = true ∨ DL.IsEmpty n.branches = false

/-- Every label tree is sorted and balanced, every node below is live and its label short. -/
inductive WF : Node V → Prop where
  | mk {br : Option (DL.Tree (Node V))} {val : Option V} (hok : DL.Ok br)
      (hsub : ∀ l m, DL.RawGet br l = some m → WF m) (hlive : ∀ l m, DL.RawGet br l = some m → Live m)
      (hlen : ∀ l m, DL.RawGet br l = some m → 1 ≤ l.length ∧ l.length ≤ 63) : WF (.mk br val)

theorem WF.ok {n : Node V} (h : WF n) : DL.Ok n.branches := by cases h; assumption
theorem WF.sub {n m : Node V} (h : WF n) {l : Bytes} (hm : DL.RawGet n.branches l = some m) : WF m := by
  cases h with | mk a b c d => exact b l m hm
theorem WF.live {n m : Node V} (h : WF n) {l : Bytes} (hm : DL.RawGet n.branches l = some m) : Live m := by
  cases h with | mk a b c d => exact c l m hm
theorem WF.len {n m : Node V} (h : WF n) {l : Bytes} (hm : DL.RawGet n.branches l = some m) : 1 ≤ l.length ∧ l.length ≤ 63 := by
  cases h with | mk a b c d => exact d l m hm

theorem WF.new : WF (.new : Node V) :=
  .mk DL.ok_none (by intro l m h; cases h) (by intro l m h; cases h) (by intro l m h; cases h)

theorem WF.setVal {br : Option (DL.Tree (Node V))} {v v' : Option V} (h : WF (.mk br v)) : WF (.mk br v') := by
  cases h with | mk a b c d => exact .mk a b c d

/-- The node a domain leads to. -/
def nodeAt : Node V → List Bytes → Option (Node V)
  | n, [] => some n
  | n, l :: ls => (DL.RawGet n.branches l).bind fun m => nodeAt m ls

/-- The value stored under a domain. -/
def valueAt (n : Node V) (ls : List Bytes) : Option V := (nodeAt n ls).bind Node.val

@[simp] theorem valueAt_nil (n : Node V) : valueAt n [] = n.val := rfl
theorem valueAt_cons (n : Node V) (l : Bytes) (ls : List Bytes) :
    valueAt n (l :: ls) = (DL.RawGet n.branches l).bind fun m => valueAt m ls := by
  unfold valueAt
  simp only [nodeAt]
  cases DL.RawGet n.branches l <;> rfl

theorem valueAt_mk (br : Option (DL.Tree (Node V))) (v : Option V) (l : Bytes) (ls : List Bytes) :
    valueAt (.mk br v) (l :: ls) = (DL.RawGet br l).bind fun m => valueAt m ls := valueAt_cons _ _ _

theorem valueAt_new (ls : List Bytes) : valueAt (.new : Node V) ls = none := by
  cases ls with
  | nil => rfl
  | cons l ls => rw [valueAt_cons]; rfl

theorem nodeAt_append (n : Node V) (a b : List Bytes) : nodeAt n (a ++ b) = (nodeAt n a).bind fun m => nodeAt m b := by
  induction a generalizing n with
  | nil => rfl
  | cons l a ih =>
    simp only [List.cons_append, nodeAt]
    cases DL.RawGet n.branches l with
    | none => rfl
    | some m => exact ih m

theorem valueAt_append {n m : Node V} {a : List Bytes} (h : nodeAt n a = some m) (b : List Bytes) :
    valueAt n (a ++ b) = valueAt m b := by
  unfold valueAt; rw [nodeAt_append, h]; rfl

theorem WF.nodeAt {n m : Node V} (h : WF n) {ls : List Bytes} (hm : nodeAt n ls = some m) : WF m := by
  induction ls generalizing n with
  | nil => cases hm; exact h
  | cons l ls ih =>
    simp only [DomTree.nodeAt] at hm
    cases hg : DL.RawGet n.branches l with
    | none => simp [hg] at hm
    | some k => rw [hg] at hm; exact ih (h.sub hg) hm

/-- A live well-formed node has a value somewhere. -/
theorem live_value {n : Node V} (h : WF n) (hl : Live n) : ∃ q v, valueAt n q = some v := by
  induction h with
  | @mk br val hok hsub hlive hlen ih =>
    rcases hl with hl | hl
    · obtain ⟨v, hv⟩ := Option.isSome_iff_exists.1 hl
      exact ⟨[], v, hv⟩
    · have : ¬ ∀ q, DL.RawGet br q = none := by
        rw [← DL.isEmpty_iff hok]
        intro h'; simp only [Node.branches] at hl; rw [h'] at hl; cases hl
      by_cases hex : ∃ q m, DL.RawGet br q = some m
      · obtain ⟨l, m, hm⟩ := hex
        obtain ⟨q, v, hv⟩ := ih l m hm (hlive l m hm)
        exact ⟨l :: q, v, by rw [valueAt_mk, hm]; exact hv⟩
      · exfalso; apply this; intro q
        cases hq : DL.RawGet br q with
        | none => rfl
        | some m => exact absurd ⟨q, m, hq⟩ hex

theorem dead_value {n : Node V} (h : WF n) (hl : n.val.isNone = true) (he : DL.IsEmpty n.branches = true) (q : List Bytes) :
    valueAt n q = none := by
  cases q with
  | nil => simpa using hl
  | cons l q => rw [valueAt_cons, (DL.isEmpty_iff h.ok).1 he]; rfl

/-- Replacing one branch. -/
theorem setBranch {n m : Node V} (h : WF n) (hm : WF m) (hl : Live m) (l : Bytes) (hlen : 1 ≤ l.length ∧ l.length ≤ 63) :
    ∃ br, DL.RawInsert n.branches l m = some br ∧ WF (.mk br n.val) ∧ Live (.mk br n.val) ∧
      ∀ a q, valueAt (.mk br n.val) (a :: q) = if l = a then valueAt m q else valueAt n (a :: q) := by
  obtain ⟨t', h1, h2, h3, h4⟩ := DL.rawInsert_ok h.ok l m
  refine ⟨some t', h1, .mk h2 ?_ ?_ ?_, .inr h4, ?_⟩
  · intro a k hk; rw [h3] at hk
    split at hk
    · cases hk; exact hm
    · exact h.sub hk
  · intro a k hk; rw [h3] at hk
    split at hk
    · cases hk; exact hl
    · exact h.live hk
  · intro a k hk; rw [h3] at hk
    split at hk
    · subst_vars; exact hlen
    · exact h.len hk
  · intro a q
    rw [valueAt_mk, valueAt_cons, h3]
    by_cases hq : l = a <;> simp [hq]

theorem delBranch {n : Node V} (h : WF n) (l : Bytes) :
    WF (.mk (DL.RawDelete n.branches l).1 n.val) ∧
      ∀ a q, valueAt (.mk (DL.RawDelete n.branches l).1 n.val) (a :: q) = if l = a then none else valueAt n (a :: q) := by
  obtain ⟨h2, h3⟩ := DL.rawDelete_ok h.ok l
  refine ⟨.mk h2 ?_ ?_ ?_, ?_⟩
  · intro a k hk; rw [h3] at hk
    split at hk
    · cases hk
    · exact h.sub hk
  · intro a k hk; rw [h3] at hk
    split at hk
    · cases hk
    · exact h.live hk
  · intro a k hk; rw [h3] at hk
    split at hk
    · cases hk
    · exact h.len hk
  · intro a q
    rw [valueAt_mk, valueAt_cons, h3]
    by_cases hq : l = a <;> simp [hq]

theorem copy_some (n : Node V) : copy (some n) = n := by cases n; rfl

theorem insertL_ok {n : Node V} (h : WF n) (ls : List Bytes) (hs : Short ls) (v : V) :
    ∃ n', insertL n ls v = some n' ∧ WF n' ∧ Live n' ∧ ∀ q, valueAt n' q = if q = ls then some v else valueAt n q := by
  induction ls generalizing n with
  | nil =>
    refine ⟨_, rfl, ?_, .inl rfl, ?_⟩
    · cases n; exact h.setVal
    · intro q
      cases q with
      | nil => rfl
      | cons a q => simp only [reduceCtorEq, if_false]; rw [valueAt_mk, valueAt_cons]
  | cons l ls ih =>
    simp only [insertL]
    have hwf : WF (nextNode n l) ∧ ∀ q, valueAt (nextNode n l) q = valueAt n (l :: q) := by
      unfold nextNode
      cases hg : DL.RawGet n.branches l with
      | none => exact ⟨WF.new, fun q => by rw [valueAt_cons, hg, valueAt_new]; rfl⟩
      | some m => simp only [copy_some]; exact ⟨h.sub hg, fun q => by rw [valueAt_cons, hg]; rfl⟩
    obtain ⟨n', h1, h2, h3, h4⟩ := ih hwf.1 (fun x hx => hs x (by simp [hx]))
    obtain ⟨br, h5, h6, h7, h8⟩ := setBranch h h2 h3 l (hs l (by simp))
    refine ⟨.mk br n.val, by rw [h1]; simp [h5], h6, h7, ?_⟩
    intro q
    cases q with
    | nil => simp [Node.val]
    | cons a q =>
      rw [h8, h4, hwf.2]
      by_cases ha : l = a
      · subst ha; simp
      · have : ¬ (a = l) := fun h => ha h.symm
        simp [ha, this]

theorem WF.newTree : WF (.mk DL.NewTree none : Node V) :=
  .mk DL.ok_new (by intro l m h; cases h) (by intro l m h; cases h) (by intro l m h; cases h)

theorem valueAt_newTree (v : Option V) (ls : List Bytes) : valueAt (.mk DL.NewTree v : Node V) ls = if ls = [] then v else none := by
  cases ls with
  | nil => rfl
  | cons l ls => rw [valueAt_mk]; rfl

theorem inplaceL_ok {n n' : Node V} (h : WF n) (ls : List Bytes) (hs : Short ls) (v : V) (hi : inplaceL n ls v = some n') :
    WF n' ∧ Live n' ∧ ∀ q, valueAt n' q = if q = ls then some v else valueAt n q := by
  induction ls generalizing n n' with
  | nil =>
    cases hi
    refine ⟨?_, .inl rfl, ?_⟩
    · cases n; exact h.setVal
    · intro q
      cases q with
      | nil => rfl
      | cons a q => simp only [reduceCtorEq, if_false]; rw [valueAt_mk, valueAt_cons]
  | cons l ls ih =>
    have hs' : Short ls := fun x hx => hs x (by simp [hx])
    obtain ⟨br, val⟩ := n
    rcases br with _ | t
    · simp [inplaceL] at hi
    · simp only [inplaceL, branches_mk, val_mk] at hi
      cases hg : DL.RawGet (some t) l with
      | some m =>
        simp only [hg] at hi
        cases hm : inplaceL m ls v with
        | none => simp [hm] at hi
        | some m' =>
          simp only [hm, Option.map_some, Option.some.injEq] at hi
          subst hi
          obtain ⟨h1, h2, h3⟩ := ih (h.sub (n := .mk (some t) val) hg) hs' hm
          obtain ⟨k1, k2, k3⟩ := DL.updAt_ok (t := t) h.ok hg m'
          refine ⟨.mk k1 ?_ ?_ ?_, .inr k3, ?_⟩
          · intro a k hk; rw [k2] at hk
            split at hk
            · cases hk; exact h1
            · exact h.sub (n := .mk (some t) val) hk
          · intro a k hk; rw [k2] at hk
            split at hk
            · cases hk; exact h2
            · exact h.live (n := .mk (some t) val) hk
          · intro a k hk; rw [k2] at hk
            split at hk
            · subst_vars; exact hs _ (by simp)
            · exact h.len (n := .mk (some t) val) hk
          · intro q
            cases q with
            | nil => simp
            | cons a q =>
              rw [valueAt_mk, k2, valueAt_mk]
              by_cases ha : l = a
              · subst ha; simp [h3, hg]
              · have : ¬ (a = l) := fun h => ha h.symm
                simp [ha, this]
      | none =>
        simp only [hg] at hi
        cases hm : inplaceL (.mk DL.NewTree none) ls v with
        | none => simp [hm] at hi
        | some m' =>
          obtain ⟨h1, h2, h3⟩ := ih WF.newTree hs' hm
          obtain ⟨br, k1, k2, k3, k4⟩ := setBranch h h1 h2 l (hs l (by simp))
          simp only [branches_mk] at k1
          simp only [hm, Option.bind_some, k1, Option.map_some, Option.some.injEq] at hi
          subst hi
          refine ⟨k2, k3, ?_⟩
          intro q
          cases q with
          | nil => simp
          | cons a q =>
            have := k4 a q
            simp only [val_mk] at this
            rw [this, h3]
            by_cases ha : l = a
            · subst ha
              rw [valueAt_mk, hg, valueAt_newTree]
              by_cases hq : q = ls <;> simp [hq]
            · have : ¬ (a = l) := fun h => ha h.symm
              simp [ha, this]

/-- What `Get` computes from the labels. -/
theorem get_fold (n : Node V) (acc : Option V) (ls : List Bytes) :
    (∃ p v, (foldStop getStep (n, acc) ls).1.2 = some v ∧ p ≠ [] ∧ p <+: ls ∧ valueAt n p = some v ∧
      ∀ p' v', p' <+: ls → valueAt n p' = some v' → p'.length ≤ p.length) ∨
    ((foldStop getStep (n, acc) ls).1.2 = acc ∧ ∀ p, p ≠ [] → p <+: ls → valueAt n p = none) := by
  induction ls generalizing n acc with
  | nil => right; exact ⟨rfl, fun p h1 h2 => absurd (List.prefix_nil.1 h2) h1⟩
  | cons l ls ih =>
    cases hg : DL.RawGet n.branches l with
    | none =>
      right
      refine ⟨by simp [foldStop, getStep, hg], ?_⟩
      intro p h1 h2
      cases p with
      | nil => exact absurd rfl h1
      | cons a p =>
        rw [List.cons_prefix_cons] at h2
        obtain ⟨rfl, h2⟩ := h2
        rw [valueAt_cons, hg]; rfl
    | some m =>
      have hst : foldStop getStep (n, acc) (l :: ls) = foldStop getStep (m, m.val.or acc) ls := by
        simp only [foldStop, getStep, hg]
        cases m.val <;> rfl
      rw [hst]
      have hv : ∀ q, valueAt n (l :: q) = valueAt m q := fun q => by rw [valueAt_cons, hg]; rfl
      rcases ih m (m.val.or acc) with ⟨p, v, h1, h2, h3, h4, h5⟩ | ⟨h1, h2⟩
      · left
        refine ⟨l :: p, v, h1, by simp, by simpa using h3, by rw [hv, h4], ?_⟩
        intro p' v' hp hv'
        cases p' with
        | nil => simp
        | cons a p' =>
          rw [List.cons_prefix_cons] at hp
          obtain ⟨rfl, hp⟩ := hp
          rw [hv] at hv'
          have := h5 p' v' hp hv'
          simp; omega
      · cases hm : m.val with
        | none =>
          right
          refine ⟨by rw [← hm, h1, hm]; rfl, ?_⟩
          intro p hp1 hp2
          cases p with
          | nil => exact absurd rfl hp1
          | cons a p =>
            rw [List.cons_prefix_cons] at hp2
            obtain ⟨rfl, hp⟩ := hp2
            rw [hv]
            cases p with
            | nil => exact hm
            | cons b p => exact h2 _ (by simp) hp
        | some v =>
          left
          refine ⟨[l], v, by rw [← hm, h1, hm]; rfl, by simp, by simp, by rw [hv]; exact hm, ?_⟩
          intro p' v' hp hv'
          cases p' with
          | nil => simp
          | cons a p' =>
            rw [List.cons_prefix_cons] at hp
            obtain ⟨rfl, hp⟩ := hp
            rw [hv] at hv'
            cases p' with
            | nil => simp
            | cons b p' => rw [h2 _ (by simp) hp] at hv'; cases hv'

/-- `labs` (last label first) leads from `root` to `cur` through `nodes` (last node first). -/
inductive Chain (root : Node V) : List Bytes → Node V → List (Node V) → Prop where
  | root : Chain root [] root []
  | step {labs : List Bytes} {p m : Node V} {nodes : List (Node V)} {l : Bytes} (h : Chain root labs p nodes)
      (hm : DL.RawGet p.branches l = some m) : Chain root (l :: labs) m (p :: nodes)

theorem Chain.nodeAt {root cur : Node V} {labs : List Bytes} {nodes : List (Node V)} (h : Chain root labs cur nodes) :
    nodeAt root labs.reverse = some cur := by
  induction h with
  | root => rfl
  | step h hm ih => rw [List.reverse_cons, nodeAt_append, ih]; simp [DomTree.nodeAt, hm]

theorem Chain.length {root cur : Node V} {labs : List Bytes} {nodes : List (Node V)} (h : Chain root labs cur nodes) :
    nodes.length = labs.length := by
  induction h with
  | root => rfl
  | step h hm ih => simp [ih]

theorem branch_fold {root cur : Node V} {labs : List Bytes} {nodes : List (Node V)} (h : Chain root labs cur nodes)
    (ls : List Bytes) (hlen : labs.length + ls.length ≤ 127) :
    (nodeAt cur ls = none ∧ (foldStop branchStep (labs, cur, nodes) ls).2 = some .notFound) ∨
    (∃ m ns, nodeAt cur ls = some m ∧ (ls = [] ∨ labs.length + ls.length ≤ 126) ∧
      foldStop branchStep (labs, cur, nodes) ls = ((ls.reverse ++ labs, m, ns), none) ∧ Chain root (ls.reverse ++ labs) m ns) ∨
    (∃ m, nodeAt cur ls = some m ∧ ls ≠ [] ∧ labs.length + ls.length = 127 ∧
      (foldStop branchStep (labs, cur, nodes) ls).2 = some .panic) := by
  induction ls generalizing cur labs nodes with
  | nil => right; left; exact ⟨cur, nodes, rfl, .inl rfl, rfl, h⟩
  | cons l ls ih =>
    cases hg : DL.RawGet cur.branches l with
    | none => left; simp [DomTree.nodeAt, hg, foldStop, branchStep]
    | some m =>
      have hn : nodeAt cur (l :: ls) = nodeAt m ls := by simp [DomTree.nodeAt, hg]
      have hL := h.length
      simp only [List.length_cons] at hlen
      by_cases hp : MaxLabels ≤ nodes.length + 1
      · have h127 : ls = [] ∧ labs.length = 126 := by
          simp [MaxLabels, MaxName] at hp
          cases ls with
          | nil => exact ⟨rfl, by simp at hlen; omega⟩
          | cons a b => simp at hlen; omega
        obtain ⟨rfl, h126⟩ := h127
        right; right
        refine ⟨m, by rw [hn]; rfl, by simp, by simp; omega, ?_⟩
        simp [foldStop, branchStep, hg, hp]
      · have hst : foldStop branchStep (labs, cur, nodes) (l :: ls) = foldStop branchStep (l :: labs, m, cur :: nodes) ls := by
          simp [foldStop, branchStep, hg, hp]
        rw [hst, hn]
        have hp' : labs.length + 1 ≤ 126 := by simp [MaxLabels, MaxName] at hp; omega
        rcases ih (h.step hg) (by simp; omega) with ⟨h1, h2⟩ | ⟨m', ns, h1, h2, h3, h4⟩ | ⟨m', h1, h2, h3, h4⟩
        · exact .inl ⟨h1, h2⟩
        · right; left
          refine ⟨m', ns, h1, .inr ?_, by simpa using h3, by simpa using h4⟩
          rcases h2 with rfl | h2
          · simp; omega
          · simp at h2 ⊢; omega
        · right; right
          exact ⟨m', h1, by simp, by simp at h3 ⊢; omega, h4⟩

/-- `copyBranch` replaces the node at the end of the chain. -/
theorem copyBranch_ok {root p p' : Node V} {labs : List Bytes} {nodes : List (Node V)} (hr : WF root)
    (h : Chain root labs p nodes) (hp : WF p') :
    ∃ r, copyBranch p' labs nodes = some r ∧ WF r ∧ (∀ q, valueAt r (labs.reverse ++ q) = valueAt p' q) ∧
      ∀ q, ¬ labs.reverse <+: q → valueAt r q = valueAt root q := by
  induction h generalizing p' with
  | root => exact ⟨p', rfl, hp, fun q => rfl, fun q hq => absurd (List.nil_prefix) hq⟩
  | @step labs p m nodes l h hm ih =>
    have hpw := hr.nodeAt h.nodeAt
    -- the parent with the branch replaced
    have key : ∃ p'', copyBranch p' (l :: labs) (p :: nodes) = copyBranch p'' labs nodes ∧ WF p'' ∧ p''.val = p.val ∧
        ∀ a q, valueAt p'' (a :: q) = if l = a then valueAt p' q else valueAt p (a :: q) := by
      by_cases hd : (p'.val.isNone && DL.IsEmpty p'.branches) = true
      · obtain ⟨h1, h2⟩ := delBranch hpw l
        refine ⟨_, by rw [copyBranch]; simp only [hd, if_true], h1, rfl, ?_⟩
        intro a q
        rw [h2]
        simp only [Bool.and_eq_true] at hd
        by_cases ha : l = a <;> simp [ha, dead_value hp hd.1 hd.2]
      · have hlive : Live p' := by
          unfold Live
          cases hv : p'.val with
          | some v => exact .inl rfl
          | none =>
            right; simp [hv] at hd; exact hd
        obtain ⟨br, h1, h2, h3, h4⟩ := setBranch hpw hp hlive l (hpw.len hm)
        refine ⟨.mk br p.val, ?_, h2, rfl, h4⟩
        rw [copyBranch]; simp [hd, h1]
    obtain ⟨p'', h1, h2, h3, h4⟩ := key
    obtain ⟨r, h5, h6, h7, h8⟩ := ih h2
    refine ⟨r, by rw [h1, h5], h6, ?_, ?_⟩
    · intro q
      rw [List.reverse_cons, List.append_assoc, h7]
      simp [h4]
    · intro q hq
      by_cases hpre : labs.reverse <+: q
      · obtain ⟨q', rfl⟩ := hpre
        rw [h7, valueAt_append h.nodeAt]
        cases q' with
        | nil => exact h3
        | cons a q' =>
          rw [h4]
          have : ¬ l = a := by
            rintro rfl; apply hq
            rw [List.reverse_cons]; exact ⟨q', by simp⟩
          simp [this]
      · exact h8 q hpre

end Verif.DomTree
