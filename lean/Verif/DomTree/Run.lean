import Verif.DomTree.Enum

namespace Verif.DomTree
open Verif.Domain Verif.DomainText
variable {V : Type}

/-- A name got by parsing some text, with its labels from the top-level one. -/
def Parsed (d : Name) (ls : List Bytes) : Prop := (∃ s, MakeNameFromString s = .ok d) ∧ d.labels = some ls

/-- What a call stands for. -/
inductive OpDom : Op V → DOp V → Prop where
  | insert {d : Name} {ls : List Bytes} {v : V} (h : Parsed d ls) : OpDom (.insert d v) (.insert ls v)
  | inplace {d : Name} {ls : List Bytes} {v : V} (h : Parsed d ls) : OpDom (.inplace d v) (.insert ls v)
  | delete {d : Name} {ls : List Bytes} (h : Parsed d ls) : OpDom (.delete d) (.delete ls)
  | deleteSub {d : Name} {ls : List Bytes} (h : Parsed d ls) : OpDom (.deleteSub d) (.deleteSub ls)

theorem Parsed.holds {d : Name} {ls : List Bytes} (h : Parsed d ls) : Holds d ls := by
  obtain ⟨⟨s, hs⟩, hl⟩ := h
  obtain ⟨ls', h'⟩ := holds_of_parse hs
  rw [h'.labels] at hl; cases hl; exact h'

/-- The labels of a parsed name print and parse to themselves. -/
theorem toUpper_idem : ∀ c, toUpper (toUpper c) = toUpper c := forall_u8 (by decide +kernel)

theorem Parsed.reparse {d : Name} {ls : List Bytes} (h : Parsed d ls) :
    ∃ d', MakeNameFromString (keyOf ls) = .ok d' ∧ d'.labels = some ls := by
  obtain ⟨⟨s, hs⟩, hl⟩ := h
  rcases make_sound hs with ⟨_, rfl⟩ | ⟨ts, tr, hv, hlim, _, rfl⟩
  · have : ls = [] := by
      have : Name.labels ⟨[46], []⟩ = some [] := rfl
      rw [this] at hl; cases hl; rfl
    subst this
    exact ⟨_, rfl, rfl⟩
  · rw [labels_encode _ (short_of_limits hlim)] at hl
    cases hl
    have hback : ∀ t : List Tok, labelBytes ((labelBytes t).map tokOf) = labelBytes t := by
      intro t
      simp only [labelBytes, List.map_map]
      apply List.map_congr_left
      intro x _
      simp [tokOf_byte, toUpper_idem]
    have e : (ts.reverse.map labelBytes).reverse.map (·.map tokOf) = ts.map fun t => (labelBytes t).map tokOf := by
      simp [Function.comp_def]
    have hlim' : WithinLimits (ts.map fun t => (labelBytes t).map tokOf) := by
      constructor
      · intro l hl
        simp only [List.mem_map] at hl
        obtain ⟨t, ht, rfl⟩ := hl
        simpa [labelBytes_length] using hlim.1 t ht
      · simpa [Function.comp_def, labelBytes_length] using hlim.2
    have hval : Valids (ts.map fun t => (labelBytes t).map tokOf) := by
      intro l hl
      simp only [List.mem_map] at hl
      obtain ⟨t, ht, rfl⟩ := hl
      refine ⟨?_, ?_⟩
      · have := (hlim.1 t ht).1
        intro h0
        cases t with
        | nil => simp at this
        | cons x t => simp [labelBytes] at h0
      · intro x hx
        simp only [List.mem_map] at hx
        obtain ⟨c, _, rfl⟩ := hx
        exact tokOf_valid c
    refine ⟨_, by unfold keyOf; rw [e]; exact make_complete hval false hlim', ?_⟩
    rw [labels_encode _ (short_of_limits hlim')]
    simp only [List.map_reverse, List.map_map, Function.comp_def, hback]

/-- All names of a history that may be stored. -/
theorem stored_parsed {ops : List (Op V × DOp V)} (h : ∀ p ∈ ops, OpDom p.1 p.2) {q : List Bytes} {v : V}
    (hq : lastDom (ops.map Prod.snd) q = some v) : ∃ d, Parsed d q := by
  induction ops with
  | nil => cases hq
  | cons p ops ih =>
    obtain ⟨op, o⟩ := p
    have h0 := h (op, o) (by simp)
    have hr := fun hq => ih (fun x hx => h x (by simp [hx])) hq
    simp only [List.map_cons] at hq
    cases h0 with
    | insert hp =>
      simp only [lastDom] at hq
      split at hq
      · subst_vars; exact ⟨_, hp⟩
      · exact hr hq
    | inplace hp =>
      simp only [lastDom] at hq
      split at hq
      · subst_vars; exact ⟨_, hp⟩
      · exact hr hq
    | delete hp =>
      simp only [lastDom] at hq
      split at hq
      · cases hq
      · exact hr hq
    | deleteSub hp =>
      simp only [lastDom] at hq
      split at hq
      · cases hq
      · exact hr hq

theorem base_new {n0 : Option (Node V)} (h : n0 = none ∨ n0 = some .new) : base n0 = .new := by
  rcases h with rfl | rfl <;> rfl

/-- One call on a well-formed tree. -/
theorem step_spec {n n' : Option (Node V)} {m : DMap V} (h : WF (base n)) (hm : ∀ q, valueAt (base n) q = m q) {op : Op V} {o : DOp V}
    (ho : OpDom op o) (hs : step n op = some n') : WF (base n') ∧
      ∀ q, valueAt (base n') q = match o with
        | .insert d v => if q = d then some v else m q
        | .delete d => if q = d then none else m q
        | .deleteSub d => if d <+: q then none else m q := by
  cases ho with
  | insert hp =>
    rename_i d ls v
    obtain ⟨n1, h1, h2, h3⟩ := insert_api h hp.holds v
    simp only [step, h1] at hs; cases hs
    exact ⟨by simpa using h2, fun q => by simp [h3, hm]⟩
  | inplace hp =>
    obtain ⟨h1, h2⟩ := inplace_api h hp.holds _ hs
    exact ⟨h1, fun q => by simp [h2, hm]⟩
  | delete hp =>
    rename_i d ls
    cases n with
    | none =>
      simp only [step, Delete] at hs; cases hs
      refine ⟨h, fun q => ?_⟩
      have := hm q
      simp only [base_none, valueAt_new] at this ⊢
      rw [← this]; simp
    | some n =>
      simp only [base_some] at h hm
      simp only [step] at hs
      rcases delete_api h hp.holds with ⟨h1, h2⟩ | ⟨k, r, h1, h2, h3, h4, h5⟩ | ⟨k, h1, h2, h3⟩
      · rw [h2] at hs; cases hs
        refine ⟨by simpa using h, fun q => ?_⟩
        simp only [base_some, hm]
        split
        · subst_vars; rw [← hm]; have := valueAt_of_nodeAt_none h1 []; simpa using this
        · rfl
      · rw [h3] at hs; cases hs
        exact ⟨by simpa using h4, fun q => by simp [h5, hm]⟩
      · rw [h3] at hs; cases hs
  | deleteSub hp =>
    rename_i d ls
    cases n with
    | none =>
      simp only [step, DeleteSubdomains] at hs; cases hs
      refine ⟨h, fun q => ?_⟩
      have := hm q
      simp only [base_none, valueAt_new] at this ⊢
      rw [← this]; simp
    | some n =>
      simp only [base_some] at h hm
      simp only [step] at hs
      rcases deleteSub_api h hp.holds with ⟨h1, h2⟩ | ⟨k, r, f, h1, h2, h3, h4, _, h5⟩ | ⟨k, h1, h2, h3⟩
      · rw [h2] at hs; cases hs
        refine ⟨by simpa using h, fun q => ?_⟩
        simp only [base_some]
        rw [hm]
        split
        · rename_i hpre
          obtain ⟨q', rfl⟩ := hpre
          rw [← hm]; exact valueAt_of_nodeAt_none h1 q'
        · rfl
      · rw [h3] at hs; cases hs
        exact ⟨by simpa using h4, fun q => by simp [h5, hm]⟩
      · rw [h3] at hs; cases hs

theorem run_spec {n0 : Option (Node V)} (h0 : n0 = none ∨ n0 = some .new) (ops : List (Op V × DOp V))
    (h : ∀ p ∈ ops, OpDom p.1 p.2) {n : Option (Node V)} (hr : run n0 (ops.map Prod.fst) = some n) :
    WF (base n) ∧ ∀ q, valueAt (base n) q = lastDom (ops.map Prod.snd) q := by
  induction ops generalizing n with
  | nil =>
    cases hr
    rw [base_new h0]
    exact ⟨.new, fun q => valueAt_new q⟩
  | cons p ops ih =>
    obtain ⟨op, o⟩ := p
    simp only [List.map_cons, run] at hr
    cases hn : run n0 (ops.map Prod.fst) with
    | none => simp [hn] at hr
    | some n1 =>
      rw [hn] at hr
      obtain ⟨h1, h2⟩ := ih (fun x hx => h x (by simp [hx])) hn
      obtain ⟨h3, h4⟩ := step_spec h1 h2 (h (op, o) (by simp)) hr
      refine ⟨h3, fun q => ?_⟩
      rw [h4, List.map_cons]
      cases o <;> rfl

/-- The names of the deletions have at most 126 labels, and there is no in-place insertion. -/
def Op.small : Op V → Prop
  | .insert _ _ => True
  | .inplace _ _ => False
  | .delete d => ∀ ls, d.labels = some ls → ls.length ≤ 126
  | .deleteSub d => ∀ ls, d.labels = some ls → ls.length ≤ 126

theorem step_some {n : Option (Node V)} (h : WF (base n)) {op : Op V} {o : DOp V} (ho : OpDom op o) (hs : op.small) :
    ∃ n', step n op = some n' := by
  cases ho with
  | insert hp =>
    rename_i d ls v
    obtain ⟨n1, h1, _⟩ := insert_api h hp.holds v
    exact ⟨_, h1⟩
  | inplace hp => exact hs.elim
  | delete hp =>
    rename_i d ls
    have := hs ls hp.2
    cases n with
    | none => exact ⟨_, rfl⟩
    | some n =>
      simp only [base_some] at h
      rcases delete_api h hp.holds with ⟨h1, h2⟩ | ⟨k, r, h1, h2, h3, _⟩ | ⟨k, h1, h2, h3⟩
      · exact ⟨some n, by simp [step, h2]⟩
      · exact ⟨some r, by simp [step, h3]⟩
      · omega
  | deleteSub hp =>
    rename_i d ls
    have := hs ls hp.2
    cases n with
    | none => exact ⟨_, rfl⟩
    | some n =>
      simp only [base_some] at h
      rcases deleteSub_api h hp.holds with ⟨h1, h2⟩ | ⟨k, r, f, h1, h2, h3, _⟩ | ⟨k, h1, h2, h3⟩
      · exact ⟨some n, by simp [step, h2]⟩
      · exact ⟨some r, by simp [step, h3]⟩
      · omega

theorem run_some {n0 : Option (Node V)} (h0 : n0 = none ∨ n0 = some .new) (ops : List (Op V × DOp V))
    (h : ∀ p ∈ ops, OpDom p.1 p.2) (hs : ∀ p ∈ ops, p.1.small) : ∃ n, run n0 (ops.map Prod.fst) = some n := by
  induction ops with
  | nil => exact ⟨_, rfl⟩
  | cons p ops ih =>
    obtain ⟨n, hn⟩ := ih (fun x hx => h x (by simp [hx])) (fun x hx => hs x (by simp [hx]))
    have h1 := (run_spec h0 ops (fun x hx => h x (by simp [hx])) hn).1
    obtain ⟨n', hn'⟩ := step_some h1 (h p (by simp)) (hs p (by simp))
    exact ⟨n', by simp [run, hn, hn']⟩

end Verif.DomTree
