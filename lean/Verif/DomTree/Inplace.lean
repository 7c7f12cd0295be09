import Verif.DomTree.Run

/-! # Trees without nil branches below the root, on which InplaceInsert does not panic -/

namespace Verif.DomTree
open Verif.Domain Verif.DomainText
variable {V : Type}

/-- No nil branches at or below the node. -/
inductive Full : Node V → Prop where
  | mk {t : DL.Tree (Node V)} {val : Option V} (h : ∀ l m, DL.RawGet (some t) l = some m → Full m) : Full (.mk (some t) val)

/-- No nil branches below the node. -/
def SubFull (n : Node V) : Prop := ∀ l m, DL.RawGet n.branches l = some m → Full m

theorem Full.sub {n : Node V} (h : Full n) : SubFull n := by cases h; assumption
theorem Full.some {n : Node V} (h : Full n) : n.branches ≠ none := by cases h; simp
theorem SubFull.full {n : Node V} (h : SubFull n) (hb : n.branches ≠ none) : Full n := by
  obtain ⟨br, val⟩ := n
  cases br with
  | none => exact absurd rfl hb
  | some t => exact .mk h

theorem subFull_insert {n m : Node V} {br : Option (DL.Tree (Node V))} {l : Bytes} {v : Option V} (hw : WF n) (h : SubFull n) (hm : Full m)
    (hi : DL.RawInsert n.branches l m = some br) : SubFull (.mk br v) ∧ br ≠ none := by
  obtain ⟨t', h1, h2, h3, h4⟩ := DL.rawInsert_ok hw.ok l m
  rw [h1] at hi; cases hi
  refine ⟨?_, by simp⟩
  intro a k hk
  rw [branches_mk, h3] at hk
  split at hk
  · cases hk; exact hm
  · exact h a k hk

theorem subFull_delete {n : Node V} {l : Bytes} {v : Option V} (hw : WF n) (h : SubFull n) :
    SubFull (.mk (DL.RawDelete n.branches l).1 v) ∧ (n.branches ≠ none → (DL.RawDelete n.branches l).1 ≠ none) := by
  obtain ⟨h2, h3⟩ := DL.rawDelete_ok hw.ok l
  refine ⟨?_, ?_⟩
  · intro a k hk
    rw [branches_mk, h3] at hk
    split at hk
    · cases hk
    · exact h a k hk
  · intro hn
    cases hb : n.branches with
    | none => exact absurd hb hn
    | some t => simp [DL.RawDelete]

theorem inplaceL_full {n : Node V} (hw : WF n) (h : Full n) (ls : List Bytes) (hs : Short ls) (v : V) :
    ∃ n', inplaceL n ls v = some n' ∧ Full n' := by
  induction ls generalizing n with
  | nil =>
    cases h with
    | mk h => exact ⟨_, rfl, .mk h⟩
  | cons l ls ih =>
    have hs' : Short ls := fun x hx => hs x (by simp [hx])
    cases h with
    | @mk t val h =>
      simp only [inplaceL, branches_mk, val_mk]
      cases hg : DL.RawGet (some t) l with
      | some m =>
        obtain ⟨m', h1, h2⟩ := ih (hw.sub (n := .mk (some t) val) hg) (h l m hg) hs'
        obtain ⟨k1, k2, k3⟩ := DL.updAt_ok (t := t) hw.ok hg m'
        refine ⟨.mk (some ⟨DL.updAt l m' t.root⟩) val, by simp [h1], .mk ?_⟩
        intro a k hk; rw [k2] at hk
        split at hk
        · cases hk; exact h2
        · exact h a k hk
      | none =>
        obtain ⟨m', h1, h2⟩ := ih WF.newTree (.mk (by intro a k hk; cases hk)) hs'
        obtain ⟨k1, k2, k3⟩ := inplaceL_ok WF.newTree ls hs' v h1
        obtain ⟨br, e1, e2, e3, e4⟩ := setBranch hw k1 k2 l (hs l (by simp))
        simp only [branches_mk] at e1
        obtain ⟨f1, f2⟩ := subFull_insert (n := .mk (some t) val) (v := val) hw h h2 e1
        exact ⟨.mk br val, by simp [h1, e1], f1.full f2⟩

theorem chain_full {root p : Node V} {labs : List Bytes} {nodes : List (Node V)} (hr : SubFull root) (h : Chain root labs p nodes) :
    SubFull p ∧ (labs ≠ [] → p.branches ≠ none) := by
  induction h with
  | root => exact ⟨hr, by simp⟩
  | step h hm ih =>
    have := ih.1 _ _ hm
    exact ⟨this.sub, fun _ => this.some⟩

theorem copyBranch_full {root p p' r : Node V} {labs : List Bytes} {nodes : List (Node V)} (hw : WF root) (hr : SubFull root)
    (h : Chain root labs p nodes) (hp : SubFull p') (hp' : labs ≠ [] → p'.branches ≠ none)
    (hc : copyBranch p' labs nodes = some r) : SubFull r := by
  induction h generalizing p' with
  | root => cases hc; exact hp
  | @step labs p m nodes l h hm ih =>
    have hpw := hw.nodeAt h.nodeAt
    obtain ⟨c1, c2⟩ := chain_full hr h
    rw [copyBranch] at hc
    split at hc
    · obtain ⟨d1, d2⟩ := subFull_delete (l := l) (v := p.val) hpw c1
      exact ih d1 (fun hne => d2 (c2 hne)) hc
    · cases hi : DL.RawInsert p.branches l p' with
      | none => simp [hi] at hc
      | some br =>
        simp only [hi, Option.bind_some] at hc
        obtain ⟨f1, f2⟩ := subFull_insert (v := p.val) hpw c1 (hp.full (hp' (by simp))) hi
        exact ih f1 (fun _ => f2) hc

theorem subFull_new : SubFull (.new : Node V) := by intro l m h; cases h

theorem delete_full {n : Node V} (hw : WF n) (hf : SubFull n) {d : Name} {ls : List Bytes} (hd : Holds d ls) {r : Option (Node V)} {f : Bool}
    (hr : Delete (some n) d = some (r, f)) : SubFull (base r) := by
  unfold Delete at hr
  simp only at hr
  rcases getBranch_api (n := n) hd with ⟨h1, h2⟩ | ⟨m, ns, h1, h2, h3, h4⟩ | ⟨m, h1, h2, h3⟩
  · rw [h2] at hr; cases hr; simpa using hf
  · rw [h3] at hr
    simp only at hr
    obtain ⟨c1, c2⟩ := chain_full hf h4
    split at hr
    · cases hr; simpa using hf
    · split at hr
      · rename_i label labs p nodes hl
        rw [hl] at h4 c2
        cases h4 with
        | step hch hpm =>
          have hpw := hw.nodeAt hch.nodeAt
          obtain ⟨p1, p2⟩ := chain_full hf hch
          split at hr
          · cases hc : copyBranch (Node.mk (DL.RawDelete p.branches label).1 p.val) labs nodes with
            | none => simp [hc] at hr
            | some r' =>
              simp [hc] at hr
              obtain ⟨rfl, _⟩ := hr
              obtain ⟨d1, d2⟩ := subFull_delete (l := label) (v := p.val) hpw p1
              rw [base_some]
              exact copyBranch_full hw hf hch d1 (fun hne => d2 (p2 hne)) hc
          · cases hi : DL.RawInsert p.branches label (Node.mk m.branches none) with
            | none => simp [hi] at hr
            | some br =>
              simp only [hi, Option.bind_some] at hr
              cases hc : copyBranch (Node.mk br p.val) labs nodes with
              | none => simp [hc] at hr
              | some r' =>
                simp [hc] at hr
                obtain ⟨rfl, _⟩ := hr
                have hfull : Full (Node.mk m.branches (none : Option V)) :=
                  SubFull.full (n := .mk m.branches none) c1 (c2 (by simp))
                obtain ⟨f1, f2⟩ := subFull_insert (v := p.val) hpw p1 hfull hi
                rw [base_some]
                exact copyBranch_full hw hf hch f1 (fun _ => f2) hc
      · split at hr
        · cases hr; rw [base_some]; exact subFull_new
        · cases hr; rw [base_some]; exact c1
  · rw [h3] at hr; cases hr

theorem deleteSub_full {n : Node V} (hw : WF n) (hf : SubFull n) {d : Name} {ls : List Bytes} (hd : Holds d ls) {r : Option (Node V)} {f : Bool}
    (hr : DeleteSubdomains (some n) d = some (r, f)) : SubFull (base r) := by
  unfold DeleteSubdomains at hr
  simp only at hr
  rcases getBranch_api (n := n) hd with ⟨h1, h2⟩ | ⟨m, ns, h1, h2, h3, h4⟩ | ⟨m, h1, h2, h3⟩
  · rw [h2] at hr; cases hr; simpa using hf
  · rw [h3] at hr
    simp only at hr
    split at hr
    · cases hr; simpa using hf
    · split at hr
      · rename_i label labs p nodes hl
        rw [hl] at h4
        cases h4 with
        | step hch hpm =>
          have hpw := hw.nodeAt hch.nodeAt
          obtain ⟨p1, p2⟩ := chain_full hf hch
          cases hc : copyBranch (Node.mk (DL.RawDelete p.branches label).1 p.val) labs nodes with
          | none => simp [hc] at hr
          | some r' =>
            simp [hc] at hr
            obtain ⟨rfl, _⟩ := hr
            obtain ⟨d1, d2⟩ := subFull_delete (l := label) (v := p.val) hpw p1
            rw [base_some]
            exact copyBranch_full hw hf hch d1 (fun hne => d2 (p2 hne)) hc
      · cases hr; rw [base_some]; exact subFull_new
  · rw [h3] at hr; cases hr

/-- No `Insert`; deletions with names of up to 126 labels. -/
def Op.noInsert : Op V → Prop
  | .insert _ _ => False
  | .inplace _ _ => True
  | .delete d => ∀ ls, d.labels = some ls → ls.length ≤ 126
  | .deleteSub d => ∀ ls, d.labels = some ls → ls.length ≤ 126

theorem inplace_full {n : Node V} (hw : WF n) (hf : SubFull n) {d : Name} {ls : List Bytes} (hd : Holds d ls) (v : V) :
    ∃ n', InplaceInsert (some n) d v = some (some n') ∧ SubFull n' := by
  obtain ⟨br, val⟩ := n
  unfold InplaceInsert
  simp only [hd.labelsOf, Option.bind_some]
  cases br with
  | none =>
    simp only [branches_mk, val_mk]
    obtain ⟨n', h1, h2⟩ := inplaceL_full (WF.newTree.setVal (v' := val)) (.mk (by intro a k hk; cases hk)) ls hd.short v
    exact ⟨n', by rw [h1]; rfl, h2.sub⟩
  | some t =>
    simp only [branches_mk]
    obtain ⟨n', h1, h2⟩ := inplaceL_full hw (hf.full (by simp)) ls hd.short v
    exact ⟨n', by rw [h1]; rfl, h2.sub⟩

theorem run_noInsert (ops : List (Op V × DOp V)) (h : ∀ p ∈ ops, OpDom p.1 p.2) (hs : ∀ p ∈ ops, p.1.noInsert) :
    ∃ n, run (some .new) (ops.map Prod.fst) = some (some n) ∧ SubFull n := by
  induction ops with
  | nil => exact ⟨.new, rfl, subFull_new⟩
  | cons p ops ih =>
    obtain ⟨n, hn, hf⟩ := ih (fun x hx => h x (by simp [hx])) (fun x hx => hs x (by simp [hx]))
    have hw := (run_spec (.inr rfl) ops (fun x hx => h x (by simp [hx])) hn).1
    rw [base_some] at hw
    obtain ⟨op, o⟩ := p
    have ho := h (op, o) (by simp)
    have hsm := hs (op, o) (by simp)
    simp only [List.map_cons, run, hn, Option.bind_some]
    cases ho with
    | insert hp => exact hsm.elim
    | inplace hp =>
      obtain ⟨n', h1, h2⟩ := inplace_full hw hf hp.holds _
      exact ⟨n', h1, h2⟩
    | delete hp =>
      have := hsm _ hp.2
      rcases delete_api hw hp.holds with ⟨_, h2⟩ | ⟨k, r, _, _, h3, _⟩ | ⟨k, _, h2, h3⟩
      · exact ⟨n, by simp [step, h2], hf⟩
      · refine ⟨r, by simp [step, h3], ?_⟩
        have := delete_full hw hf hp.holds h3
        simpa using this
      · omega
    | deleteSub hp =>
      have := hsm _ hp.2
      rcases deleteSub_api hw hp.holds with ⟨_, h2⟩ | ⟨k, r, f, _, _, h3, _⟩ | ⟨k, _, h2, h3⟩
      · exact ⟨n, by simp [step, h2], hf⟩
      · refine ⟨r, by simp [step, h3], ?_⟩
        have := deleteSub_full hw hf hp.holds h3
        simpa using this
      · omega

end Verif.DomTree
