import Verif.Heap.Crash
import Verif.DomHeap.History

/-! # The calls of domaintree that panic, on memory -/

namespace Verif.DomHeap
open Verif Verif.Heap Verif.Heap.Prog Verif.Heap.ATree Verif.RB Verif.RBHeap Verif.DLHeap Verif.Domain Verif.DomainText Verif.DomTree

variable {V : Type}

/-- The walk of `getBranch` when it runs over the array. -/
theorem branchPanic {m K f : Nat} {h : Heap (DD V)} {ra : Addr} {rn : Node V} {rF : Addr → Prop} {W : Addr → Prop} (hf : tall m < f) (ls : List Bytes) :
    ∀ (k : Nat) (labs : List Bytes) (a : Addr) (n : Node V) (F : Addr → Prop) (ps : List Ptr) (ns : List (Node V)),
    Up m h K ra rn rF k labs a n F ps ns → ls.length < k → (foldStop branchStep (labs, n, ns) ls).2 = some .panic →
    pan W (foldP (branchStepP f) (labs, some a, ps) ls) (fun h' => h' = h) h := by
  induction ls with
  | nil => intro k labs a n F ps ns u hk hp; cases hp
  | cons l ls ih =>
    intro k labs a n F ps ns u hk hp
    simp only [List.length_cons] at hk
    obtain ⟨k, rfl⟩ : ∃ j, k = j + 1 := ⟨k - 1, by omega⟩
    obtain ⟨t, A, fn, ff, o⟩ := u.rep
    have hget := o.rawGet l
    simp only [foldStop, branchStep, hget] at hp
    cases e : at_ A l with
    | none => simp [e] at hp
    | some p =>
      obtain ⟨c, rfl, r⟩ := o.sub l p e
      have e' : RB.get DL.cmpLabel (erase A) l = some (some c) := e
      simp only [e, Option.map_some] at hp
      simp only [foldP]
      by_cases hM : MaxLabels ≤ ns.length + 1
      · refine pan_left ?_
        unfold branchStepP
        refine pan_bind ?_
        rw [wp_nodeP o.cell]
        refine pan_bind (wp_conseq (RawGetP_spec o.lab hf l) ?_)
        rintro _ h0 ⟨rfl, rfl⟩
        simp only [e', assertP]
        refine pan_bind ?_
        simp only [wp_pure, u.len, hM, if_true]
        exact ⟨rfl, rfl⟩
      · refine pan_bind ?_
        unfold branchStepP
        rw [wp_bind, wp_nodeP o.cell, wp_bind]
        refine wp_conseq (RawGetP_spec o.lab hf l) ?_
        rintro _ h0 ⟨rfl, rfl⟩
        simp only [e', assertP]
        rw [wp_bind, wp_pure, u.len]
        simp only [hM, if_false, wp_pure] at hp ⊢
        exact ih k (l :: labs) c (fn (some c)) (ff l) (some a :: ps) (n :: ns) (.step u o e) (by omega) hp

theorem getBranchP_panic {m k f : Nat} {h : Heap (DD V)} {a : Addr} {n : Node V} {F : Addr → Prop} {W : Addr → Prop} (hf : tall m < f) (hN : NRep m h k a n F)
    {d : Name} {ls : List Bytes} (hd : Holds d ls) (hk : ls.length < k) (hb : getBranch n d = none) :
    pan W (getBranchP f (some a) d) (fun h' => h' = h) h := by
  unfold getBranchP
  rw [getLabelsP hd]
  refine pan_left (branchPanic hf ls k [] a n F [] [] (.root hN) hk ?_)
  unfold getBranch at hb
  rw [hd.getLabels] at hb
  cases hs : foldStop branchStep ([], n, []) ls with
  | mk st e =>
    rw [hs] at hb
    cases e with
    | none => simp at hb
    | some e => cases e <;> simp at hb ⊢

theorem getBranch_none {n : Node V} (hw : WF n) {d : Name} {ls : List Bytes} (hd : Holds d ls) :
    (DomTree.Delete (some n) d = none → getBranch n d = none) ∧ (DomTree.DeleteSubdomains (some n) d = none → getBranch n d = none) := by
  constructor
  · intro hx
    rcases delete_api hw hd with ⟨_, h⟩ | ⟨_, _, _, _, h, _⟩ | ⟨m, h1, h2, _⟩
    · rw [h] at hx; cases hx
    · rw [h] at hx; cases hx
    · rcases getBranch_api (n := n) hd with ⟨g, _⟩ | ⟨_, _, _, g, _⟩ | ⟨_, _, _, g⟩
      · rw [g] at h1; cases h1
      · omega
      · exact g
  · intro hx
    rcases deleteSub_api hw hd with ⟨_, h⟩ | ⟨_, _, _, _, _, h, _⟩ | ⟨m, h1, h2, _⟩
    · rw [h] at hx; cases hx
    · rw [h] at hx; cases hx
    · rcases getBranch_api (n := n) hd with ⟨g, _⟩ | ⟨_, _, _, g, _⟩ | ⟨_, _, _, g⟩
      · rw [g] at h1; cases h1
      · omega
      · exact g

/-- The walk of `InplaceInsert` down to a node without branches. -/
theorem inplacePanic {m f : Nat} (hf : tall m < f) (v : V) {h : Heap (DD V)} (ls : List Bytes) (hs : Short ls) : ∀ (k : Nat) (a : Addr) (n : Node V) (F : Addr → Prop),
    NRep m h k a n F → WF n → ls.length < k → inplaceL n ls v = none →
    pan (fun x => h.next ≤ x) (foldP (inplaceStepP f) (some a) ls) (fun _ => True) h := by
  induction ls with
  | nil => intro k a n F hN hw hk hi; cases hi
  | cons l ls ih =>
    intro k a n F hN hw hk hi
    have hs' : Short ls := fun x hx => hs x (by simp [hx])
    simp only [List.length_cons] at hk
    obtain ⟨k, rfl⟩ : ∃ j, k = j + 1 := ⟨k - 1, by omega⟩
    obtain ⟨t, A, fn, ff, o⟩ := hN
    have hget := o.rawGet l
    simp only [foldP]
    cases e : at_ A l with
    | some p =>
      obtain ⟨c, rfl, r⟩ := o.sub l p e
      have e' : RB.get DL.cmpLabel (erase A) l = some (some c) := e
      have hg : DL.RawGet n.branches l = some (fn (some c)) := by rw [hget, e]; rfl
      have hi1 : inplaceL (fn (some c)) ls v = none := by
        cases hb : n.branches with
        | none => rw [hb] at hg; cases hg
        | some b =>
          rw [hb] at hg
          simp only [inplaceL, hb, hg, Option.map_eq_none_iff] at hi
          exact hi
      refine pan_bind ?_
      unfold inplaceStepP
      rw [wp_bind, wp_nodeP o.cell, wp_bind]
      refine wp_conseq (RawGetP_spec o.lab hf l) ?_
      rintro _ h0 ⟨rfl, rfl⟩
      simp only [e', assertP]
      rw [wp_bind]
      simp only [wp_pure]
      exact ih hs' k c _ _ r (hw.sub hg) (by omega) hi1
    | none =>
      have e' : RB.get DL.cmpLabel (erase A) l = none := e
      have hg : DL.RawGet n.branches l = none := by rw [hget, e]; rfl
      have hb : n.branches = none := by
        cases hb : n.branches with
        | none => rfl
        | some b =>
          exfalso
          rw [hb] at hg
          obtain ⟨m', e1, _⟩ := inplaceL_full (v := v) WF.newTree (.mk (by intro a k hk; cases hk)) ls hs'
          obtain ⟨t', e3, _⟩ := DL.rawInsert_ok hw.ok l m'
          rw [hb] at e3
          simp only [inplaceL, hb, hg, e1, Option.bind_some, e3] at hi
          cases hi
      have ht : t = none := by
        cases t with
        | none => rfl
        | some b => have : n.branches = some ⟨mapT fn (erase A)⟩ := o.br; rw [hb] at this; cases this
      subst ht
      refine pan_left ?_
      unfold inplaceStepP
      refine pan_bind ?_
      rw [wp_nodeP o.cell]
      refine pan_bind (wp_conseq (RawGetP_spec o.lab hf l) ?_)
      rintro _ h0 ⟨rfl, rfl⟩
      simp only [e']
      refine pan_bind ?_
      rw [wp_newTreeP]
      refine pan_bind ?_
      rw [wp_newNodeP]
      refine pan_bind ?_
      have hlt := o.lt
      rw [wp_nodeP (val := n.val) (t := none) (y := none)]
      · refine pan_left ?_
        unfold RawInplaceInsertP
        refine pan_left ?_
        exact ⟨rfl, trivial⟩
      · rw [Heap.mem_push, if_neg (by simp; omega), Heap.mem_push, if_neg (by omega)]
        exact o.cell

/-- Any call as a program. -/
def callP (f : Nat) : Op V → Ptr → Prog (DD V) Ptr
  | .inplace d v, r => inpP f (.inplace d v) r
  | o, r => cowP f o r

/-- A call that panics leaves all existing memory as it was. -/
theorem step_panic {m f : Nat} (hf : tall m < f) {h : Heap (DD V)} {r : Ptr} {n : Option (Node V)} {F : Addr → Prop} (hN : PRep m h 128 r n F) (hw : WF (base n))
    {o : Op V} (ho : Named o) (hs : DomTree.step n o = none) : pan (fun x => h.next ≤ x) (callP f o r) (fun _ => True) h := by
  obtain ⟨s, hs'⟩ := ho
  obtain ⟨ls, hd⟩ := holds_of_parse hs'
  have hk : ls.length < 128 := by have := hd.count; omega
  cases o with
  | insert d v =>
    obtain ⟨n1, e, _⟩ := insert_api hw hd v
    simp only [DomTree.step] at hs
    rw [show d = opName (.insert d v) from rfl, e] at hs
    cases hs
  | delete d =>
    cases n with
    | none => cases hs
    | some n =>
      cases r with
      | none => exact hN.elim
      | some a =>
        simp only [DomTree.step, Option.map_eq_none_iff] at hs
        rw [base_some] at hw
        have hb := (getBranch_none hw hd).1 hs
        show pan _ (cowP f (.delete d) (some a)) _ _
        unfold cowP DomHeap.DeleteP
        refine pan_left ?_
        simp only [reduceCtorEq, if_false]
        exact pan_left (pan_mono (fun _ => id) (fun _ _ => trivial) (getBranchP_panic hf hN hd hk hb))
  | deleteSub d =>
    cases n with
    | none => cases hs
    | some n =>
      cases r with
      | none => exact hN.elim
      | some a =>
        simp only [DomTree.step, Option.map_eq_none_iff] at hs
        rw [base_some] at hw
        have hb := (getBranch_none hw hd).2 hs
        show pan _ (cowP f (.deleteSub d) (some a)) _ _
        unfold cowP DomHeap.DeleteSubdomainsP
        refine pan_left ?_
        simp only [reduceCtorEq, if_false]
        exact pan_left (pan_mono (fun _ => id) (fun _ _ => trivial) (getBranchP_panic hf hN hd hk hb))
  | inplace d v =>
    have hd : Holds d ls := hd
    show pan _ (inpP f (.inplace d v) r) _ _
    unfold inpP
    refine pan_left ?_
    unfold DomHeap.InplaceInsertP
    cases n with
    | none =>
      cases r with
      | some a => exact hN.elim
      | none =>
        refine pan_left ?_
        unfold ensureBranchesP
        refine pan_left ?_
        exact ⟨rfl, trivial⟩
    | some n =>
      cases r with
      | none => exact hN.elim
      | some a =>
        rw [base_some] at hw
        simp only [DomTree.step, DomTree.InplaceInsert, hd.labelsOf, Option.bind_some, Option.map_eq_none_iff] at hs
        simp only [getLabelsP hd]
        have hN' : NRep m h 128 a n F := hN
        obtain ⟨t, A, fn, ff, o⟩ := hN
        cases hb : n.branches with
        | none =>
          exfalso
          rw [hb] at hs
          obtain ⟨m', e1, _⟩ := inplaceL_full (v := v) (WF.newTree.setVal (v' := n.val)) (.mk (by intro a k hk; cases hk)) ls hd.short
          rw [e1] at hs; cases hs
        | some b =>
          rw [hb] at hs
          refine pan_bind ?_
          unfold ensureBranchesP
          rw [wp_bind, wp_nodeP o.cell]
          have ht : t ≠ none := by
            rintro rfl
            have : n.branches = none := o.br
            rw [hb] at this; cases this
          simp only [ht, if_false, wp_pure]
          exact pan_left (inplacePanic hf v ls hd.short 128 a n F hN' hw hk hs)

/-- The calls that do not panic after a chain of calls. -/
def Covered (st : Bool) (l : List (Op V)) : Op V → Prop
  | .inplace d v => inpOk st l (.inplace d v)
  | o => cowOk l o

theorem live_stored {n : Node V} (h : WF n) {l : List (Op V)} (hq : ∀ q, valueAt n q = storedBy l q) {ls : List Bytes} (hl : storedBy l ls ≠ none) : ∃ m, nodeAt n ls = some m := by
  cases hm : nodeAt n ls with
  | some m => exact ⟨m, rfl⟩
  | none =>
    exfalso; apply hl
    rw [← hq, valueAt, hm]; rfl

/-- Exactly the covered calls succeed. -/
theorem step_iff {st : Bool} {l : List (Op V)} (h : ∀ o ∈ l, Named o) {n : Option (Node V)} (hr : DomTree.run (start0 st) l = some n) {o : Op V} (ho : Named o) :
    DomTree.step n o ≠ none ↔ Covered st l o := by
  obtain ⟨h1, h2⟩ := run_stored h hr
  have cow : ∀ o', cowOk l o' → DomTree.step n o' ≠ none := fun o' hc => by
    obtain ⟨n', e⟩ := cow_some h hr hc; rw [e]; simp
  have hn := ho
  obtain ⟨s, hs⟩ := ho
  obtain ⟨ls, hd⟩ := holds_of_parse hs
  cases o with
  | insert d v => exact ⟨fun _ => ⟨hn, trivial⟩, cow _⟩
  | inplace d v => exact inplace_iff h hr hn
  | delete d =>
    have hd : Holds d ls := hd
    refine ⟨fun hs => ⟨hn, ?_⟩, cow _⟩
    intro ls' hl' hlen
    rw [hd.labels] at hl'; cases hl'
    cases hv : storedBy l ls with
    | none => rfl
    | some v =>
      exfalso; apply hs
      cases n with
      | none => rw [← h2, base_none, valueAt_new] at hv; cases hv
      | some n =>
        rw [base_some] at h1 h2
        obtain ⟨m, hm⟩ := live_stored h1 h2 (ls := ls) (by rw [hv]; simp)
        rcases delete_api h1 hd with ⟨g, _⟩ | ⟨_, _, _, g, _⟩ | ⟨_, _, _, g⟩
        · rw [g] at hm; cases hm
        · omega
        · simp only [DomTree.step, g, Option.map_none]
  | deleteSub d =>
    have hd : Holds d ls := hd
    refine ⟨fun hs => ⟨hn, ?_⟩, cow _⟩
    intro ls' hl' hlen
    rw [hd.labels] at hl'; cases hl'
    cases hv : storedBy l ls with
    | none => rfl
    | some v =>
      exfalso; apply hs
      cases n with
      | none => rw [← h2, base_none, valueAt_new] at hv; cases hv
      | some n =>
        rw [base_some] at h1 h2
        obtain ⟨m, hm⟩ := live_stored h1 h2 (ls := ls) (by rw [hv]; simp)
        rcases deleteSub_api h1 hd with ⟨g, _⟩ | ⟨_, _, _, _, g, _⟩ | ⟨_, _, _, g⟩
        · rw [g] at hm; cases hm
        · omega
        · simp only [DomTree.step, g, Option.map_none]

end Verif.DomHeap
