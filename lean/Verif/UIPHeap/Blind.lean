import Verif.NumHeap.Blind
import Verif.UIPHeap.History

/-! # The programs of the generated IP trees do not look at the names of addresses -/

namespace Verif.UIPHeap
open Verif Verif.Heap Verif.Heap.Prog Verif.Num Verif.NumHeap Verif.IP

variable {V : Type} {ρ : Addr → Addr → Prop}

/-- Related contents of cells of the same type; the value of a `node64s` is a pointer. -/
def UDR (ρ : Addr → Addr → Prop) : UD V → UD V → Prop
  | .n32 d, .n32 e => NDR Eq d e
  | .n64 d, .n64 e => NDR Eq d e
  | .n64s d, .n64s e => NDR (PR ρ) d e
  | .tree, .tree => True
  | _, _ => False

/-- Cells of the same type with related contents and pointers. -/
def UCellR (ρ : Addr → Addr → Prop) (c d : Cell (UD V)) : Prop := PR ρ c.c0 d.c0 ∧ PR ρ c.c1 d.c1 ∧ UDR ρ c.d d.d

theorem UDR.mono {σ : Addr → Addr → Prop} (h : ∀ a b, ρ a b → σ a b) {c d : UD V} (hc : UDR ρ c d) : UDR σ c d := by
  cases c <;> cases d <;> first | exact hc | exact ⟨hc.key, hc.bits, hc.leaf, hc.value.mono h⟩

/-- Related pointers in the cells of `Tree`. -/
def TreeR (ρ : Addr → Addr → Prop) (c d : Cell Unit) : Prop := PR ρ c.c0 d.c0 ∧ PR ρ c.c1 d.c1

theorem u32a (c d : Cell (UD V)) (hc : UCellR ρ c d) : (k32.cell c = none ∧ k32.cell d = none) ∨ ∃ c' d', k32.cell c = some c' ∧ k32.cell d = some d' ∧ NCellR ρ Eq c' d' := by
  obtain ⟨c, x, y⟩ := c
  obtain ⟨d, x', y'⟩ := d
  obtain ⟨h1, h2, h3⟩ := hc
  cases c <;> cases d <;> first | exact h3.elim | exact .inl ⟨rfl, rfl⟩ | exact .inr ⟨_, _, rfl, rfl, h1, h2, h3⟩
theorem u32b (c d : Cell (ND 32 V)) (hc : NCellR ρ Eq c d) : UCellR (V := V) ρ (c.map k32.inj) (d.map k32.inj) := ⟨hc.c0, hc.c1, hc.d⟩
theorem u64a (c d : Cell (UD V)) (hc : UCellR ρ c d) : (k64.cell c = none ∧ k64.cell d = none) ∨ ∃ c' d', k64.cell c = some c' ∧ k64.cell d = some d' ∧ NCellR ρ Eq c' d' := by
  obtain ⟨c, x, y⟩ := c
  obtain ⟨d, x', y'⟩ := d
  obtain ⟨h1, h2, h3⟩ := hc
  cases c <;> cases d <;> first | exact h3.elim | exact .inl ⟨rfl, rfl⟩ | exact .inr ⟨_, _, rfl, rfl, h1, h2, h3⟩
theorem u64b (c d : Cell (ND 64 V)) (hc : NCellR ρ Eq c d) : UCellR (V := V) ρ (c.map k64.inj) (d.map k64.inj) := ⟨hc.c0, hc.c1, hc.d⟩
theorem u64sa (c d : Cell (UD V)) (hc : UCellR ρ c d) : (k64s.cell c = none ∧ k64s.cell d = none) ∨ ∃ c' d', k64s.cell c = some c' ∧ k64s.cell d = some d' ∧ NCellR ρ (PR ρ) c' d' := by
  obtain ⟨c, x, y⟩ := c
  obtain ⟨d, x', y'⟩ := d
  obtain ⟨h1, h2, h3⟩ := hc
  cases c <;> cases d <;> first | exact h3.elim | exact .inl ⟨rfl, rfl⟩ | exact .inr ⟨_, _, rfl, rfl, h1, h2, h3⟩
theorem u64sb (c d : Cell (ND 64 Ptr)) (hc : NCellR ρ (PR ρ) c d) : UCellR (V := V) ρ (c.map k64s.inj) (d.map k64s.inj) := ⟨hc.c0, hc.c1, hc.d⟩
theorem utra (c d : Cell (UD V)) (hc : UCellR ρ c d) : (kTree.cell c = none ∧ kTree.cell d = none) ∨ ∃ c' d', kTree.cell c = some c' ∧ kTree.cell d = some d' ∧ TreeR ρ c' d' := by
  obtain ⟨c, x, y⟩ := c
  obtain ⟨d, x', y'⟩ := d
  obtain ⟨h1, h2, h3⟩ := hc
  cases c <;> cases d <;> first | exact h3.elim | exact .inl ⟨rfl, rfl⟩ | exact .inr ⟨_, _, rfl, rfl, h1, h2⟩
theorem utrb (c d : Cell Unit) (hc : TreeR ρ c d) : UCellR (V := V) ρ (c.map kTree.inj) (d.map kTree.inj) := ⟨hc.1, hc.2, trivial⟩

abbrev BU (ρ : Addr → Addr → Prop) {α β : Type} (p : Prog (UD V) α) (q : Prog (UD V) β) (P : α → β → Prop) : Prop := p.Sim ρ (UCellR ρ) P q

theorem B_on32 {α β : Type} {P : α → β → Prop} {p : Prog (ND 32 V) α} {q : Prog (ND 32 V) β} (h : NS ρ Eq p q P) : BU ρ (on32 p) (on32 q) P := sim_lift u32a u32b h
theorem B_on64 {α β : Type} {P : α → β → Prop} {p : Prog (ND 64 V) α} {q : Prog (ND 64 V) β} (h : NS ρ Eq p q P) : BU ρ (on64 p) (on64 q) P := sim_lift u64a u64b h
theorem B_on64s {α β : Type} {P : α → β → Prop} {p : Prog (ND 64 Ptr) α} {q : Prog (ND 64 Ptr) β} (h : NS ρ (PR ρ) p q P) : BU (V := V) ρ (on64s p) (on64s q) P := sim_lift u64sa u64sb h

/-- Related pairs of pointers. -/
def PP (ρ : Addr → Addr → Prop) (x y : Ptr × Ptr) : Prop := PR ρ x.1 y.1 ∧ PR ρ x.2 y.2

theorem B_rootsP {t t' : Ptr} (ht : PR ρ t t') : BU ρ (rootsP t : Prog (UD V) _) (rootsP t') (PP ρ) := sim_lift utra utrb (sim_load ht fun _ _ hc => hc)
theorem B_newTreeP {x x' y y' : Ptr} (hx : PR ρ x x') (hy : PR ρ y y') : BU ρ (newTreeP x y : Prog (UD V) _) (newTreeP x' y') (PR ρ) :=
  sim_lift utra utrb (sim_bind (sim_new ⟨hx, hy⟩) fun _ _ ha => ha)
theorem B_rootsOrNilP {t t' : Ptr} (ht : PR ρ t t') : BU ρ (rootsOrNilP t : Prog (UD V) _) (rootsOrNilP t') (PP ρ) :=
  sim_ite ht.not_none (fun _ _ => B_rootsP ht) fun _ _ => ⟨trivial, trivial⟩
theorem B_setRoot32 {t t' r r' : Ptr} (ht : PR ρ t t') (hr : PR ρ r r') : BU ρ (setRoot32 t r : Prog (UD V) _) (setRoot32 t' r') NTr :=
  sim_lift utra utrb (sim_upd ht fun _ _ hc => ⟨hr, hc.2⟩)
theorem B_setRoot64 {t t' r r' : Ptr} (ht : PR ρ t t') (hr : PR ρ r r') : BU ρ (setRoot64 t r : Prog (UD V) _) (setRoot64 t' r') NTr :=
  sim_lift utra utrb (sim_upd ht fun _ _ hc => ⟨hc.1, hr⟩)

theorem pr_nil : PR ρ none none := trivial

theorem B_getD {x y : Option Ptr} (h : NOptR (PR ρ) x y) : PR ρ (x.getD none) (y.getD none) := by
  cases x <;> cases y <;> first | exact h | exact h.elim

section
variable [Inhabited V]

theorem B_InsertNetP (f : Nat) {t t' : Ptr} (ht : PR ρ t t') (n : Option IPNet) (v : V) : BU ρ (InsertNetP f t n v) (InsertNetP f t' n v) (PR ρ) := by
  unfold InsertNetP
  cases n with
  | none => exact ht
  | some n =>
    refine sim_bind (B_rootsOrNilP ht) fun r r' hr => ?_
    cases h4 : v4Key n with
    | some kb =>
      obtain ⟨key, bits⟩ := kb
      exact sim_bind (B_on32 (B_InsertP rfl f hr.1 key bits rfl)) fun x x' hx => B_newTreeP hx hr.2
    | none =>
      cases h6 : v6Pair n with
      | none => exact ht
      | some k =>
        exact sim_bind (B_on64s (B_ExactMatchP f hr.2 k.msKey k.msBits)) fun w w' hw =>
            sim_bind (B_on64 (B_InsertP rfl f (B_getD hw) k.lsKey k.lsBits rfl)) fun s s' hs =>
            sim_bind (B_on64s (B_InsertP pr_nil f hr.2 k.msKey k.msBits hs)) fun x x' hx => B_newTreeP hr.1 hx

theorem B_InplaceInsertNetP (ho : One ρ) (f : Nat) {t t' : Ptr} (ht : PR ρ t t') (n : Option IPNet) (v : V) : BU ρ (InplaceInsertNetP f t n v) (InplaceInsertNetP f t' n v) NTr := by
  unfold InplaceInsertNetP
  cases n with
  | none => exact trivial
  | some n =>
    cases h4 : v4Key n with
    | some kb =>
      obtain ⟨key, bits⟩ := kb
      simp only [h4]
      exact sim_bind (B_rootsP ht) fun r r' hr => sim_bind (B_on32 (B_InplaceInsertP rfl f hr.1 key bits rfl)) fun x x' hx => B_setRoot32 ht hx
    | none =>
      cases h6 : v6Pair n with
      | none => simp only [h4, h6]; exact trivial
      | some k =>
        simp only [h4, h6]
        refine sim_bind (B_rootsP ht) fun r r' hr => sim_bind (B_on64s (B_ExactMatchP f hr.2 k.msKey k.msBits)) fun w w' hw => ?_
        cases w <;> cases w'
        · exact sim_bind (B_rootsP ht) fun r r' hr => sim_bind (B_on64 (B_InplaceInsertP rfl f pr_nil k.lsKey k.lsBits rfl)) fun s s' hs =>
            sim_bind (B_on64s (B_InplaceInsertP pr_nil f hr.2 k.msKey k.msBits hs)) fun x x' hx => B_setRoot64 ht hx
        · exact hw.elim
        · exact hw.elim
        rename_i w w'
        have hw : PR ρ w w' := hw
        exact sim_bind (B_on64 (B_InplaceInsertP rfl f hw k.lsKey k.lsBits rfl)) fun s s' hs =>
          sim_ite (hs.ne_iff ho hw) (fun _ _ => sim_bind (B_rootsP ht) fun r r' hr => sim_bind (B_on64s (B_InplaceInsertP pr_nil f hr.2 k.msKey k.msBits hs)) fun x x' hx =>
            B_setRoot64 ht hx) fun _ _ => trivial

omit [Inhabited V] in
theorem B_DeleteByNetP (f : Nat) {t t' : Ptr} (ht : PR ρ t t') (n : Option IPNet) : BU ρ (DeleteByNetP f t n : Prog (UD V) _) (DeleteByNetP f t' n) (NDelR ρ) := by
  unfold DeleteByNetP
  refine sim_ite ht.none_iff (fun _ _ => ⟨ht, rfl⟩) fun _ _ => ?_
  cases n with
  | none => exact ⟨ht, rfl⟩
  | some n =>
    cases h4 : v4Key n with
    | some kb =>
      obtain ⟨key, bits⟩ := kb
      simp only [h4]
      exact sim_bind (B_rootsP ht) fun r r' hr => sim_bind (B_on32 (B_DeleteP f hr.1 key bits)) fun x x' hx => sim_ite (by rw [hx.2]) (fun _ _ => sim_bind (B_rootsP ht) fun r r' hr =>
        sim_bind (B_newTreeP hx.1 hr.2) fun _ _ h => ⟨h, rfl⟩) fun _ _ => ⟨ht, rfl⟩
    | none =>
      cases h6 : v6Pair n with
      | none => simp only [h4, h6]; exact ⟨ht, rfl⟩
      | some k =>
        simp only [h4, h6]
        refine sim_bind (B_rootsP ht) fun r r' hr => sim_bind (B_on64s (B_ExactMatchP f hr.2 k.msKey k.msBits)) fun w w' hw => ?_
        cases w <;> cases w'
        · exact ⟨ht, rfl⟩
        · exact hw.elim
        · exact hw.elim
        rename_i w w'
        have hw : PR ρ w w' := hw
        refine sim_bind (B_on64 (B_DeleteP f hw k.lsKey k.lsBits)) fun y y' hy =>
          sim_ite (by rw [hy.2]) (fun _ _ => sim_bind (B_rootsP ht) fun r r' hr => sim_ite hy.1.none_iff (fun _ _ => ?_) fun _ _ => ?_) fun _ _ => ⟨ht, rfl⟩
        · exact sim_bind (B_on64s (B_DeleteP f hr.2 k.msKey k.msBits)) fun x x' hx => sim_bind (B_newTreeP hr.1 hx.1) fun _ _ h => ⟨h, rfl⟩
        · exact sim_bind (B_on64s (B_InsertP pr_nil f hr.2 k.msKey k.msBits hy.1)) fun x x' hx => sim_bind (B_newTreeP hr.1 hx) fun _ _ h => ⟨h, rfl⟩

end

theorem B_GetByNetP (f : Nat) {t t' : Ptr} (ht : PR ρ t t') (n : Option IPNet) : BU ρ (GetByNetP f t n : Prog (UD V) _) (GetByNetP f t' n) (NOptR Eq) := by
  unfold GetByNetP
  refine sim_ite ht.none_iff (fun _ _ => trivial) fun _ _ => ?_
  cases n with
  | none => exact trivial
  | some n =>
    cases h4 : v4Key n with
    | some kb =>
      obtain ⟨key, bits⟩ := kb
      simp only [h4]
      exact sim_bind (B_rootsP ht) fun r r' hr => B_on32 (B_MatchP f hr.1 key bits)
    | none =>
      cases h6 : v6Pair n with
      | none => simp only [h4, h6]; exact trivial
      | some k =>
        simp only [h4, h6]
        refine sim_bind (B_rootsP ht) fun r r' hr => sim_bind (B_on64s (B_MatchP f hr.2 k.msKey k.msBits)) fun w w' hw => ?_
        cases w <;> cases w'
        · exact trivial
        · exact hw.elim
        · exact hw.elim
        rename_i s s'
        have hs : PR ρ s s' := hw
        refine sim_bind (B_on64 (B_MatchP f hs k.lsKey k.lsBits)) fun y y' hy => ?_
        cases y <;> cases y'
        · refine sim_ite Iff.rfl (fun _ _ => trivial) fun _ _ => sim_bind (B_rootsP ht) fun r r' hr => sim_bind (B_on64s (B_MatchP f hr.2 k.msKey _)) fun w w' hw => ?_
          cases w <;> cases w'
          · exact trivial
          · exact hw.elim
          · exact hw.elim
          · exact B_on64 (B_MatchP f hw k.lsKey k.lsBits)
        · exact hy.elim
        · exact hy.elim
        · exact hy

theorem map_rel {w : Nat} {U B : Type} {W : U → U → Prop} {g g' : ND w U → B} (hg : ∀ c d, NDR W c d → g c = g' d) {l l' : List (ND w U)} (h : NLR W l l') : l.map g = l'.map g' := by
  induction l generalizing l' with
  | nil =>
    cases l' with
    | nil => rfl
    | cons _ _ => exact h.elim
  | cons x l ih =>
    cases l' with
    | nil => exact h.elim
    | cons y l' => rw [List.map_cons, List.map_cons, hg _ _ h.1, ih h.2]

theorem B_enum6P (f : Nat) {l l' : List (ND 64 Ptr)} (h : NLR (PR ρ) l l') : BU ρ (enum6P f l : Prog (UD V) _) (enum6P f l') Eq := by
  induction l generalizing l' with
  | nil =>
    cases l' with
    | nil => exact rfl
    | cons _ _ => exact h.elim
  | cons x l ih =>
    cases l' with
    | nil => exact h.elim
    | cons y l' =>
      refine sim_bind (B_on64 (B_EnumerateP f h.1.value)) fun a a' ha => sim_bind (ih h.2) fun r r' hr => sim_pure ?_
      rw [hr, ha.eq]
      simp only [key6P, h.1.key, h.1.bits]

theorem B_EnumerateTreeP (f : Nat) {t t' : Ptr} (ht : PR ρ t t') : BU ρ (EnumerateTreeP f t : Prog (UD V) _) (EnumerateTreeP f t') Eq :=
  sim_ite ht.none_iff (fun _ _ => rfl) fun _ _ => sim_bind (B_rootsP ht) fun r r' hr => sim_bind (B_on32 (B_EnumerateP f hr.1)) fun a a' ha => sim_bind (B_rootsP ht) fun r r' hr =>
    sim_bind (B_on64s (B_EnumerateP f hr.2)) fun b b' hb => sim_bind (B_enum6P f hb) fun c c' hc => sim_pure (by rw [ha.eq, hc])

/-- The generated IP trees. -/
def uipBlind [Inhabited V] (st : Bool) (f : Nat) : (uipImpl (V := V) st f).Blind where
  rootR := PR
  cellR := UCellR
  root_mono h hp := hp.mono h
  cell_mono h c := ⟨c.1.mono h, c.2.1.mono h, c.2.2.mono h⟩
  fresh_r ρ _ := sim_ite Iff.rfl (fun _ _ => B_newTreeP trivial trivial) fun _ _ => trivial
  fresh_ok h := by cases st <;> exact ⟨_, _, rfl⟩
  cow_r ρ _ o r q hr := by
    cases o with
    | insertNet n v => exact B_InsertNetP f hr n v
    | insertIP ip v => exact B_InsertNetP f hr _ v
    | deleteByNet n => exact sim_bind (B_DeleteByNetP f hr n) fun _ _ hx => hx.1
    | deleteByIP ip => exact sim_bind (B_DeleteByNetP f hr _) fun _ _ hx => hx.1
  inp_r ρ ho o r q hr := by
    cases o with
    | insertNet n v => exact sim_bind (B_InplaceInsertNetP ho f hr n v) fun _ _ _ => hr
    | insertIP ip v => exact sim_bind (B_InplaceInsertNetP ho f hr _ v) fun _ _ _ => hr
    | deleteByNet n => exact rfl
    | deleteByIP ip => exact rfl

end Verif.UIPHeap
