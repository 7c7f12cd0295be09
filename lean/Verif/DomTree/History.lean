import Verif.DomTree.Lemmas

namespace Verif.DomTree
open Verif.Domain Verif.DomainText
variable {V : Type}

/-- The name holds these labels. -/
structure Holds (d : Name) (ls : List Bytes) : Prop where
  eq : d.c = encode ls
  short : Short ls
  count : ls.length ≤ 127

theorem Holds.getLabels {d : Name} {ls : List Bytes} (h : Holds d ls) {σ E : Type} (f : σ → Bytes → σ × Option E) (st : σ) :
    d.GetLabels f st = some (foldStop f st ls) := by
  have := getLabels_encode f ls h.short d.h st
  rw [← h.eq] at this
  exact this

theorem Holds.labelsOf {d : Name} {ls : List Bytes} (h : Holds d ls) : DomTree.labelsOf d = some ls := by
  unfold DomTree.labelsOf
  rw [h.getLabels]
  have : ∀ acc : List Bytes, foldStop (E := Empty) (fun (acc : List Bytes) l => (acc ++ [l], none)) acc ls = (acc ++ ls, none) := by
    clear h
    induction ls with
    | nil => simp [foldStop]
    | cons l ls ih => intro acc; simp [foldStop, ih]
  simp [this]

theorem Holds.labels {d : Name} {ls : List Bytes} (h : Holds d ls) : d.labels = some ls := by
  unfold Name.labels
  rw [h.getLabels, foldStop_collect]; simp

theorem holds_of_parse {s : Bytes} {d : Name} (h : MakeNameFromString s = .ok d) : ∃ ls, Holds d ls := by
  rcases make_sound h with ⟨_, rfl⟩ | ⟨ls, tr, hv, hlim, _, rfl⟩
  · exact ⟨[], rfl, by simp [Short], by simp⟩
  · exact ⟨_, rfl, short_of_limits hlim, by have := limits_count hlim; simpa using this⟩

/-- The node a pointer leads to, a zero node for nil. -/
def base (n : Option (Node V)) : Node V := copy n

@[simp] theorem base_none : base (none : Option (Node V)) = .new := rfl
@[simp] theorem base_some (n : Node V) : base (some n) = n := copy_some n

theorem insert_api {n : Option (Node V)} (h : WF (base n)) {d : Name} {ls : List Bytes} (hd : Holds d ls) (v : V) :
    ∃ n', Insert n d v = some (some n') ∧ WF n' ∧ ∀ q, valueAt n' q = if q = ls then some v else valueAt (base n) q := by
  obtain ⟨n', h1, h2, _, h3⟩ := insertL_ok h ls hd.short v
  exact ⟨n', by unfold Insert; rw [hd.labelsOf]; simp only [Option.bind_some]; rw [show copy n = base n from rfl, h1]; rfl, h2, h3⟩

theorem inplace_api {n n' : Option (Node V)} (h : WF (base n)) {d : Name} {ls : List Bytes} (hd : Holds d ls) (v : V)
    (hi : InplaceInsert n d v = some n') :
    WF (base n') ∧ ∀ q, valueAt (base n') q = if q = ls then some v else valueAt (base n) q := by
  cases n with
  | none => cases hi
  | some n =>
    unfold InplaceInsert at hi
    simp only [hd.labelsOf, Option.bind_some] at hi
    obtain ⟨br, val⟩ := n
    rw [base_some] at h ⊢
    rcases br with _ | t
    · simp only [branches_mk, val_mk] at hi
      cases hx : inplaceL (.mk DL.NewTree val) ls v with
      | none => simp [hx] at hi
      | some k =>
        simp only [hx, Option.map_some, Option.some.injEq] at hi
        subst hi
        obtain ⟨h1, _, h3⟩ := inplaceL_ok (WF.newTree.setVal (v' := val)) ls hd.short v hx
        refine ⟨by simpa using h1, fun q => ?_⟩
        rw [base_some, h3]
        cases q with
        | nil => rfl
        | cons a q => rw [valueAt_mk, valueAt_mk]; rfl
    · simp only [branches_mk] at hi
      cases hx : inplaceL (.mk (some t) val) ls v with
      | none => simp [hx] at hi
      | some k =>
        simp only [hx, Option.map_some, Option.some.injEq] at hi
        subst hi
        obtain ⟨h1, _, h3⟩ := inplaceL_ok h ls hd.short v hx
        exact ⟨by simpa using h1, fun q => by rw [base_some, h3]⟩

theorem getBranch_api {n : Node V} {d : Name} {ls : List Bytes} (hd : Holds d ls) :
    (nodeAt n ls = none ∧ getBranch n d = some none) ∨
    (∃ m ns, nodeAt n ls = some m ∧ ls.length ≤ 126 ∧ getBranch n d = some (some (ls.reverse, m, ns)) ∧ Chain n ls.reverse m ns) ∨
    (∃ m, nodeAt n ls = some m ∧ ls.length = 127 ∧ getBranch n d = none) := by
  have hg := hd.getLabels (branchStep (V := V)) ([], n, [])
  unfold getBranch
  rw [hg]
  rcases branch_fold (.root : Chain n [] n []) ls (by have := hd.count; simpa using this) with ⟨h1, h2⟩ | ⟨m, ns, h1, h2, h3, h4⟩ | ⟨m, h1, h2, h3, h4⟩
  · left
    refine ⟨h1, ?_⟩
    cases hf : foldStop branchStep ([], n, []) ls with
    | mk a b => rw [hf] at h2; cases h2; rfl
  · right; left
    refine ⟨m, ns, h1, ?_, by rw [h3]; simp, by simpa using h4⟩
    rcases h2 with rfl | h2
    · simp
    · simpa using h2
  · right; right
    refine ⟨m, h1, by simpa using h3, ?_⟩
    cases hf : foldStop branchStep ([], n, []) ls with
    | mk a b => rw [hf] at h4; cases h4; rfl

theorem valueAt_of_nodeAt_none {n : Node V} {ls : List Bytes} (h : nodeAt n ls = none) (q : List Bytes) :
    valueAt n (ls ++ q) = none := by
  unfold valueAt; rw [nodeAt_append, h]; rfl

/-- A node with its value removed. -/
theorem dropVal {br : Option (DL.Tree (Node V))} (v : Option V) (q : List Bytes) :
    valueAt (.mk br none) q = if q = [] then none else valueAt (.mk br v) q := by
  cases q with
  | nil => rfl
  | cons a q => rw [valueAt_mk, valueAt_mk]; simp

theorem delete_api {n : Node V} (h : WF n) {d : Name} {ls : List Bytes} (hd : Holds d ls) :
    (nodeAt n ls = none ∧ Delete (some n) d = some (some n, false)) ∨
    (∃ m r, nodeAt n ls = some m ∧ ls.length ≤ 126 ∧ Delete (some n) d = some (some r, m.val.isSome) ∧ WF r ∧
      ∀ q, valueAt r q = if q = ls then none else valueAt n q) ∨
    (∃ m, nodeAt n ls = some m ∧ ls.length = 127 ∧ Delete (some n) d = none) := by
  rcases getBranch_api (n := n) hd with ⟨h1, h2⟩ | ⟨m, ns, h1, h2, h3, h4⟩ | ⟨m, h1, h2, h3⟩
  · left; exact ⟨h1, by unfold Delete; simp only; rw [h2]⟩
  · right; left
    have hm : WF m := h.nodeAt h1
    cases hv : m.val with
    | none =>
      refine ⟨m, n, h1, h2, by unfold Delete; simp only; rw [h3]; simp [hv], h, ?_⟩
      intro q
      split
      · subst_vars; unfold valueAt; rw [h1]; exact hv
      · rfl
    | some v =>
      obtain ⟨mb, mv⟩ := m
      simp only [Node.val] at hv
      subst hv
      -- the node without its value
      have hdrop : WF (Node.mk mb (none : Option V)) := hm.setVal
      rcases hlr : ls.reverse with _ | ⟨l, labs⟩
      · have hl : ls = [] := by simpa using hlr
        subst hl
        rw [hlr] at h3 h4
        cases h4
        by_cases he : DL.IsEmpty mb = true
        · refine ⟨_, .new, h1, h2, by unfold Delete; simp only; rw [h3]; simp [he], .new, ?_⟩
          intro q
          rw [valueAt_new]
          split
          · rfl
          · rename_i hq
            cases q with
            | nil => exact absurd rfl hq
            | cons a q => rw [valueAt_mk, (DL.isEmpty_iff (t := mb) h.ok).1 he]; rfl
        · refine ⟨_, .mk mb none, h1, h2, ?_, hdrop, fun q => dropVal _ q⟩
          unfold Delete; simp only; rw [h3]; simp [he]
      · rw [hlr] at h3 h4
        cases h4 with
        | @step labs p m' nodes l hch hpm =>
          have hls : ls = labs.reverse ++ [l] := by
            have := congrArg List.reverse hlr; simpa using this
          have hp : WF p := h.nodeAt hch.nodeAt
          have key : ∃ p'', Delete (some n) d = (copyBranch p'' labs nodes).map (fun r => (some r, true)) ∧ WF p'' ∧ p''.val = p.val ∧
              ∀ a q, valueAt p'' (a :: q) = if l = a then valueAt (.mk mb none) q else valueAt p (a :: q) := by
            by_cases he : DL.IsEmpty mb = true
            · obtain ⟨e1, e2⟩ := delBranch hp l
              refine ⟨_, by unfold Delete; simp only; rw [h3]; simp [he], e1, rfl, ?_⟩
              intro a q
              rw [e2, dead_value hdrop rfl he]
            · have hlive : Live (Node.mk mb (none : Option V)) := .inr (by simpa using he)
              obtain ⟨br, e1, e2, _, e3⟩ := setBranch hp hdrop hlive l (hp.len hpm)
              refine ⟨.mk br p.val, ?_, e2, rfl, e3⟩
              unfold Delete; simp only; rw [h3]
              simp [he, e1]
          obtain ⟨p'', e1, e2, e3, e4⟩ := key
          obtain ⟨r, e5, e6, e7, e8⟩ := copyBranch_ok h hch e2
          refine ⟨_, r, h1, h2, by rw [e1, e5]; rfl, e6, ?_⟩
          intro q
          by_cases hpre : labs.reverse <+: q
          · obtain ⟨q', rfl⟩ := hpre
            rw [e7, valueAt_append hch.nodeAt, hls]
            cases q' with
            | nil => simp [e3]
            | cons a q' =>
              rw [e4]
              by_cases ha : l = a
              · subst ha
                rw [dropVal (some v), valueAt_cons, hpm]
                simp
              · have : ¬ (a = l) := fun h => ha h.symm
                simp [ha, this]
          · rw [e8 q hpre]
            have : q ≠ ls := by rintro rfl; apply hpre; rw [hls]; exact ⟨[l], rfl⟩
            simp [this]
  · right; right
    exact ⟨m, h1, h2, by unfold Delete; simp only; rw [h3]⟩

theorem deleteSub_api {n : Node V} (h : WF n) {d : Name} {ls : List Bytes} (hd : Holds d ls) :
    (nodeAt n ls = none ∧ DeleteSubdomains (some n) d = some (some n, false)) ∨
    (∃ m r f, nodeAt n ls = some m ∧ ls.length ≤ 126 ∧ DeleteSubdomains (some n) d = some (some r, f) ∧ WF r ∧
      (f = true ↔ ∃ q v, valueAt m q = some v) ∧
      ∀ q, valueAt r q = if ls <+: q then none else valueAt n q) ∨
    (∃ m, nodeAt n ls = some m ∧ ls.length = 127 ∧ DeleteSubdomains (some n) d = none) := by
  rcases getBranch_api (n := n) hd with ⟨h1, h2⟩ | ⟨m, ns, h1, h2, h3, h4⟩ | ⟨m, h1, h2, h3⟩
  · left; exact ⟨h1, by unfold DeleteSubdomains; simp only; rw [h2]⟩
  · right; left
    have hm : WF m := h.nodeAt h1
    rcases hlr : ls.reverse with _ | ⟨l, labs⟩
    · have hl : ls = [] := by simpa using hlr
      subst hl
      rw [hlr] at h3 h4
      cases h4
      by_cases hd : (n.val.isNone && DL.IsEmpty n.branches) = true
      · refine ⟨n, n, false, h1, h2, by unfold DeleteSubdomains; simp only; rw [h3]; simp [hd], h, ?_, ?_⟩
        · simp only [Bool.and_eq_true] at hd
          simp [dead_value h hd.1 hd.2]
        · intro q
          simp only [Bool.and_eq_true] at hd
          simp [dead_value h hd.1 hd.2]
      · refine ⟨n, .new, true, h1, h2, by unfold DeleteSubdomains; simp only; rw [h3]; simp [hd], .new, ?_, ?_⟩
        · simp only [true_iff]
          apply live_value h
          unfold Live
          cases hv : n.val with
          | some v => exact .inl rfl
          | none => right; simp [hv] at hd; exact hd
        · intro q; simp [valueAt_new]
    · rw [hlr] at h3 h4
      cases h4 with
      | @step labs p m' nodes l hch hpm =>
        have hls : ls = labs.reverse ++ [l] := by
          have := congrArg List.reverse hlr; simpa using this
        have hp : WF p := h.nodeAt hch.nodeAt
        -- the root has branches
        have hne : DL.IsEmpty n.branches = false := by
          cases he : DL.IsEmpty n.branches with
          | false => rfl
          | true =>
            have hall := (DL.isEmpty_iff h.ok).1 he
            cases ls with
            | nil => simp at hlr
            | cons a ls => simp [nodeAt, hall] at h1
        obtain ⟨e1, e2⟩ := delBranch hp l
        obtain ⟨r, e5, e6, e7, e8⟩ := copyBranch_ok h hch e1
        refine ⟨m, r, true, h1, h2, ?_, e6, ?_, ?_⟩
        · unfold DeleteSubdomains; simp only; rw [h3]; simp [hne, e5]
        · simp only [true_iff]; exact live_value hm (hp.live hpm)
        · intro q
          by_cases hpre : labs.reverse <+: q
          · obtain ⟨q', rfl⟩ := hpre
            rw [e7, valueAt_append hch.nodeAt, hls]
            simp only [List.prefix_append_right_inj]
            cases q' with
            | nil => simp [Node.val]
            | cons a q' =>
              rw [e2]
              simp [List.cons_prefix_cons]
          · rw [e8 q hpre]
            have : ¬ ls <+: q := fun hx => hpre (List.IsPrefix.trans ⟨[l], hls.symm⟩ hx)
            simp [this]
  · right; right
    exact ⟨m, h1, h2, by unfold DeleteSubdomains; simp only; rw [h3]⟩

end Verif.DomTree
