import Verif.Heap.Alone
import Verif.NumHeap.History

/-! # The programs of numtree do not look at the names of addresses -/

namespace Verif.NumHeap
open Verif.Heap Verif.Heap.Prog Verif.Num

variable {w : Nat} {V : Type} {ρ : Addr → Addr → Prop} {W : V → V → Prop}

/-- The same key, length and flag, related values. -/
structure NDR (W : V → V → Prop) (c d : ND w V) : Prop where
  key : c.key = d.key
  bits : c.bits = d.bits
  leaf : c.leaf = d.leaf
  value : W c.value d.value

/-- Related contents and related pointers. -/
structure NCellR (ρ : Addr → Addr → Prop) (W : V → V → Prop) (c d : Cell (ND w V)) : Prop where
  c0 : PR ρ c.c0 d.c0
  c1 : PR ρ c.c1 d.c1
  d : NDR W c.d d.d

theorem NCellR.child {c d : Cell (ND w V)} (h : NCellR ρ W c d) (b : Bool) : PR ρ (c.child b) (d.child b) := by
  cases b
  · exact h.c0
  · exact h.c1

theorem NCellR.setChild {c d : Cell (ND w V)} (h : NCellR ρ W c d) (b : Bool) {p q : Ptr} (hp : PR ρ p q) : NCellR ρ W (c.setChild b p) (d.setChild b q) := by
  cases b
  · exact ⟨hp, h.c1, h.d⟩
  · exact ⟨h.c0, hp, h.d⟩

theorem NCellR.mono {σ : Addr → Addr → Prop} {W' : V → V → Prop} (h : ∀ a b, ρ a b → σ a b) (hw : ∀ x y, W x y → W' x y) {c d : Cell (ND w V)} (hc : NCellR ρ W c d) : NCellR σ W' c d :=
  ⟨hc.c0.mono h, hc.c1.mono h, hc.d.key, hc.d.bits, hc.d.leaf, hw _ _ hc.d.value⟩

abbrev NS (ρ : Addr → Addr → Prop) (W : V → V → Prop) {α β : Type} (p : Prog (ND w V) α) (q : Prog (ND w V) β) (P : α → β → Prop) : Prop := p.Sim ρ (NCellR ρ W) P q

/-- Nothing. -/
abbrev NTr {α β : Type} : α → β → Prop := fun _ _ => True

/-- Reading related nodes. -/
theorem B_loadN {α β : Type} {P : α → β → Prop} {n n' : Ptr} (hn : PR ρ n n') {f : Cell (ND w V) → Prog (ND w V) α} {g : Cell (ND w V) → Prog (ND w V) β}
    (hf : ∀ k b l v v' p p' q q', NCellR ρ W ⟨⟨k, b, l, v⟩, p, q⟩ ⟨⟨k, b, l, v'⟩, p', q'⟩ → NS ρ W (f ⟨⟨k, b, l, v⟩, p, q⟩) (g ⟨⟨k, b, l, v'⟩, p', q'⟩) P) :
    NS ρ W (load n >>= f) (load n' >>= g) P :=
  sim_load hn fun c d hc => by
    obtain ⟨⟨k, b, l, v⟩, p, q⟩ := c
    obtain ⟨⟨k', b', l', v'⟩, p', q'⟩ := d
    have h1 : k = k' := hc.d.key
    have h2 : b = b' := hc.d.bits
    have h3 : l = l' := hc.d.leaf
    subst h1 h2 h3
    exact hf _ _ _ _ _ _ _ _ _ hc

theorem B_newNode {c d : ND w V} (h : NDR W c d) : NS ρ W (newNode c) (newNode d) ρ := sim_new ⟨trivial, trivial, h⟩

theorem B_updChild {n n' : Ptr} (hn : PR ρ n n') (b : Bool) {p q : Ptr} (hp : PR ρ p q) : NS ρ W (upd n (·.setChild b p) : Prog (ND w V) Unit) (upd n' (·.setChild b q)) NTr :=
  sim_upd hn fun _ _ hc => hc.setChild b hp

theorem B_updAll {n n' : Ptr} (hn : PR ρ n n') {c d : Cell (ND w V)} (h : NCellR ρ W c d) : NS ρ W (upd n (setChld · c)) (upd n' (setChld · d)) NTr :=
  sim_upd hn fun _ _ hc => ⟨h.c0, h.c1, hc.d⟩

variable [KeySize w]

section
variable [Inhabited V] (hW : W default default)
include hW

theorem B_insertP (f : Nat) {n n' : Ptr} (hn : PR ρ n n') {a b : Addr} (ha : ρ a b) : NS ρ W (insertP f n a : Prog (ND w V) Ptr) (insertP f n' b) (PR ρ) := by
  induction f generalizing n n' with
  | zero => exact rfl
  | succ f ih =>
    have ha' : PR ρ (some a) (some b) := ha
    cases n <;> cases n'
    · exact ha
    · exact hn.elim
    · exact hn.elim
    rename_i n n'
    refine B_loadN (n := some n) (n' := some n') hn fun nk nb nl nv nv' np np' nq nq' hnc => B_loadN ha' fun ck cb cl cv cv' cp cp' cq cq' hcc => ?_
    dsimp only
    refine sim_ite Iff.rfl (fun _ _ => sim_ite Iff.rfl (fun _ _ => ?_) fun _ _ => ?_) fun _ _ => sim_ite Iff.rfl (fun _ _ => ?_) fun _ _ => ?_
    · exact sim_bind (B_updChild ha' _ hn) fun _ _ _ => ha
    · refine sim_bind (B_newNode ⟨rfl, rfl, rfl, hW⟩) fun m m' hm => ?_
      have hm' : PR ρ (some m) (some m') := hm
      exact sim_bind (B_updChild hm' _ hn) fun _ _ _ => sim_bind (B_updChild hm' _ ha') fun _ _ _ => hm
    · exact sim_bind (B_updAll ha' hnc) fun _ _ _ => ha
    · refine sim_bind (B_newNode ⟨rfl, rfl, rfl, hnc.d.value⟩) fun m m' hm => ?_
      have hm' : PR ρ (some m) (some m') := hm
      exact sim_bind (B_updAll hm' hnc) fun _ _ _ => sim_load hm' fun mc mc' hmc => sim_bind (ih (hmc.child _)) fun x x' hx =>
        sim_bind (B_updChild hm' _ hx) fun _ _ _ => hm

theorem B_inplaceLoop (f : Nat) (key : BitVec w) (sbits : Nat) {v v' : V} (hv : W v v') {r r' p p' n n' : Ptr} (hr : PR ρ r r') (hp : PR ρ p p') (br : Bool) (hn : PR ρ n n') :
    NS ρ W (inplaceLoop f key sbits v r p br n : Prog (ND w V) Ptr) (inplaceLoop f key sbits v' r' p' br n') (PR ρ) := by
  induction f generalizing p p' br n n' with
  | zero => exact rfl
  | succ f ih =>
    cases n <;> cases n'
    · refine sim_bind (B_newNode ⟨rfl, rfl, rfl, hv⟩) fun m m' hm => sim_ite hp.none_iff (fun _ _ => hm) fun _ _ => ?_
      exact sim_bind (B_updChild hp _ (p := some m) (q := some m') hm) fun _ _ _ => hr
    · exact hn.elim
    · exact hn.elim
    rename_i n n'
    refine B_loadN (n := some n) (n' := some n') hn fun nk nb nl nv nv' np np' nq nq' hnc => ?_
    dsimp only
    refine sim_ite Iff.rfl (fun _ _ => ?_) fun _ _ => sim_ite Iff.rfl (fun _ _ => ?_) fun _ _ => ?_
    · have hrest : ∀ (m m' : Addr), ρ m m' → NS ρ W (do
            upd (some m) (·.setChild (branch nk (ncsb nk nb key sbits)) (some n))
            if p = none then pure (some m)
            else
              upd p (·.setChild br (some m))
              pure r : Prog (ND w V) Ptr) (do
            upd (some m') (·.setChild (branch nk (ncsb nk nb key sbits)) (some n'))
            if p' = none then pure (some m')
            else
              upd p' (·.setChild br (some m'))
              pure r' : Prog (ND w V) Ptr) (PR ρ) := fun m m' hm =>
        sim_bind (B_updChild (n := some m) (n' := some m') hm _ (p := some n) (q := some n') hn) fun _ _ _ => sim_ite hp.none_iff (fun _ _ => hm) fun _ _ =>
          sim_bind (B_updChild hp _ (p := some m) (q := some m') hm) fun _ _ _ => hr
      by_cases e : ncsb nk nb key sbits = sbits
      · rw [if_pos e, if_pos e]
        exact sim_bind (B_newNode ⟨rfl, rfl, rfl, hv⟩) fun m m' hm => sim_bind (B_updChild (n := some m) (n' := some m') hm _ (p := some n) (q := some n') hn) fun _ _ _ => hrest m m' hm
      · rw [if_neg e, if_neg e]
        exact sim_bind (B_newNode ⟨rfl, rfl, rfl, hW⟩) fun m m' hm => sim_bind (B_newNode ⟨rfl, rfl, rfl, hv⟩) fun x x' hx =>
            sim_bind (B_updChild (n := some m) (n' := some m') hm _ (p := some x) (q := some x') hx) fun _ _ _ => hrest m m' hm
    · exact sim_bind (sim_upd hn fun _ _ hc => ⟨hc.c0, hc.c1, rfl, hc.d.bits, hc.d.leaf, hc.d.value⟩) fun _ _ _ =>
        sim_bind (sim_upd hn fun _ _ hc => ⟨hc.c0, hc.c1, hc.d.key, hc.d.bits, rfl, hc.d.value⟩) fun _ _ _ =>
        sim_bind (sim_upd hn fun _ _ hc => ⟨hc.c0, hc.c1, hc.d.key, hc.d.bits, hc.d.leaf, hv⟩) fun _ _ _ => hr
    · exact ih (p := some n) (p' := some n') hn _ (hnc.child _)

theorem B_InsertP (f : Nat) {n n' : Ptr} (hn : PR ρ n n') (key : BitVec w) (bits : Int) {v v' : V} (hv : W v v') :
    NS ρ W (InsertP f n key bits v : Prog (ND w V) Ptr) (InsertP f n' key bits v') (PR ρ) :=
  sim_bind (B_newNode ⟨rfl, rfl, rfl, hv⟩) fun _ _ ha => B_insertP hW f hn ha

theorem B_InplaceInsertP (f : Nat) {n n' : Ptr} (hn : PR ρ n n') (key : BitVec w) (bits : Int) {v v' : V} (hv : W v v') :
    NS ρ W (InplaceInsertP f n key bits v : Prog (ND w V) Ptr) (InplaceInsertP f n' key bits v') (PR ρ) :=
  B_inplaceLoop hW f key _ hv hn (p := none) (p' := none) trivial _ hn

end

omit [KeySize w] in
theorem B_ifNotNil {α : Type} {P : α → α → Prop} {n n' : Ptr} (hn : PR ρ n n') {x y : α} (hx : P x y) {k k' : Prog (ND w V) α} (hk : NS ρ W k k' P) :
    NS ρ W (ifNotNil n x k) (ifNotNil n' y k') P := sim_ite hn.not_none (fun _ _ => hk) fun _ _ => hx

theorem B_matchP (f : Nat) {n n' : Ptr} (hn : PR ρ n n') (key : BitVec w) (bits : Nat) : NS ρ W (matchP f n key bits : Prog (ND w V) Ptr) (matchP f n' key bits) (PR ρ) := by
  induction f generalizing n n' with
  | zero => exact rfl
  | succ f ih =>
    refine B_loadN hn fun nk nb nl nv nv' np np' nq nq' hnc => ?_
    dsimp only
    refine sim_ite Iff.rfl (fun _ _ => trivial) fun _ _ => sim_ite Iff.rfl (fun _ _ => sim_ite Iff.rfl (fun _ _ => hn) fun _ _ => trivial) fun _ _ =>
      sim_ite Iff.rfl (fun _ _ => trivial) fun _ _ => sim_bind (B_ifNotNil (P := PR ρ) (x := none) (y := none) (hnc.child _) trivial (ih (hnc.child _))) fun r r' hr => ?_
    exact sim_ite hr.not_none (fun _ _ => hr) fun _ _ => sim_ite Iff.rfl (fun _ _ => hn) fun _ _ => trivial

theorem B_exactMatchP (f : Nat) {n n' : Ptr} (hn : PR ρ n n') (key : BitVec w) (bits : Nat) : NS ρ W (exactMatchP f n key bits : Prog (ND w V) Ptr) (exactMatchP f n' key bits) (PR ρ) := by
  induction f generalizing n n' with
  | zero => exact rfl
  | succ f ih =>
    refine B_loadN hn fun nk nb nl nv nv' np np' nq nq' hnc => ?_
    dsimp only
    refine sim_ite Iff.rfl (fun _ _ => trivial) fun _ _ => sim_ite Iff.rfl (fun _ _ => sim_ite Iff.rfl (fun _ _ => hn) fun _ _ => trivial) fun _ _ =>
      sim_ite Iff.rfl (fun _ _ => trivial) fun _ _ => sim_bind (B_ifNotNil (P := PR ρ) (x := none) (y := none) (hnc.child _) trivial (ih (hnc.child _))) fun r r' hr => ?_
    exact sim_ite hr.not_none (fun _ _ => hr) fun _ _ => trivial

/-- Related trees, the same answer. -/
def NDelR (ρ : Addr → Addr → Prop) (x y : Ptr × Bool) : Prop := PR ρ x.1 y.1 ∧ x.2 = y.2

theorem B_delP (f : Nat) {n n' : Ptr} (hn : PR ρ n n') (key : BitVec w) (bits : Nat) : NS ρ W (delP f n key bits : Prog (ND w V) _) (delP f n' key bits) (NDelR ρ) := by
  induction f generalizing n n' with
  | zero => exact rfl
  | succ f ih =>
    refine B_loadN hn fun nk nb nl nv nv' np np' nq nq' hnc => ?_
    dsimp only
    refine sim_ite Iff.rfl (fun _ _ => sim_ite Iff.rfl (fun _ _ => ⟨trivial, rfl⟩) fun _ _ => ⟨hn, rfl⟩) fun _ _ => sim_ite Iff.rfl (fun _ _ => ⟨hn, rfl⟩) fun _ _ =>
      sim_ite (hnc.child _).none_iff (fun _ _ => ⟨hn, rfl⟩) fun _ _ => sim_bind (ih (hnc.child _)) fun x x' hx => ?_
    refine sim_ite (by rw [hx.2]) (fun _ _ => ⟨hn, rfl⟩) fun _ _ => sim_ite ?_ (fun _ _ => ⟨hnc.child _, rfl⟩) fun _ _ => ?_
    · simp only [Bool.and_eq_true, decide_eq_true_eq, hx.1.none_iff]
    · refine sim_bind (B_newNode hnc.d) fun m m' hm => ?_
      have hm' : PR ρ (some m) (some m') := hm
      exact sim_bind (B_updAll hm' hnc) fun _ _ _ => sim_bind (B_updChild hm' _ hx.1) fun _ _ _ => ⟨hm, rfl⟩

/-- Related contents, in order. -/
def NLR (W : V → V → Prop) : List (ND w V) → List (ND w V) → Prop
  | [], [] => True
  | x :: l, y :: m => NDR W x y ∧ NLR W l m
  | _, _ => False

omit [KeySize w] in
theorem NLR.append {l l' m m' : List (ND w V)} (h1 : NLR W l l') (h2 : NLR W m m') : NLR W (l ++ m) (l' ++ m') := by
  induction l generalizing l' with
  | nil =>
    cases l' with
    | nil => exact h2
    | cons _ _ => exact h1.elim
  | cons x l ih =>
    cases l' with
    | nil => exact h1.elim
    | cons y l' => exact ⟨h1.1, ih h1.2⟩

omit [KeySize w] in
theorem NLR.eq {l l' : List (ND w V)} (h : NLR Eq l l') : l = l' := by
  induction l generalizing l' with
  | nil =>
    cases l' with
    | nil => rfl
    | cons _ _ => exact h.elim
  | cons x l ih =>
    cases l' with
    | nil => exact h.elim
    | cons y l' =>
      obtain ⟨xk, xb, xl, xv⟩ := x
      obtain ⟨yk, yb, yl, yv⟩ := y
      obtain ⟨⟨h1, h2, h3, h4⟩, h5⟩ := h
      cases h1; cases h2; cases h3; cases h4
      rw [ih h5]

omit [KeySize w] in
theorem B_enumerateP (f : Nat) {n n' : Ptr} (hn : PR ρ n n') : NS ρ W (enumerateP f n : Prog (ND w V) _) (enumerateP f n') (NLR W) := by
  induction f generalizing n n' with
  | zero => exact rfl
  | succ f ih =>
    refine B_loadN hn fun nk nb nl nv nv' np np' nq nq' hnc => ?_
    refine sim_bind (P := NLR W) (sim_ite hnc.c0.not_none (fun _ _ => ih hnc.c0) fun _ _ => trivial) fun a a' ha =>
      sim_bind (P := NLR W) (sim_ite hnc.c1.not_none (fun _ _ => ih hnc.c1) fun _ _ => trivial) fun b b' hb => sim_pure (NLR.append (NLR.append ?_ ha) hb)
    dsimp only
    split
    · exact ⟨hnc.d, trivial⟩
    · trivial

/-- Both nothing, or related values. -/
def NOptR (W : V → V → Prop) : Option V → Option V → Prop
  | none, none => True
  | some x, some y => W x y
  | _, _ => False

omit [KeySize w] in
theorem B_valueP {r r' : Ptr} (hr : PR ρ r r') : NS ρ W (if r = none then pure none
    else do
      let rc ← load r
      pure (some rc.d.value) : Prog (ND w V) (Option V)) (if r' = none then pure none
    else do
      let rc ← load r'
      pure (some rc.d.value) : Prog (ND w V) (Option V)) (NOptR W) :=
  sim_ite hr.none_iff (fun _ _ => trivial) fun _ _ => sim_load hr fun _ _ hc => hc.d.value

theorem B_MatchP (f : Nat) {n n' : Ptr} (hn : PR ρ n n') (key : BitVec w) (bits : Int) : NS ρ W (MatchP f n key bits : Prog (ND w V) _) (MatchP f n' key bits) (NOptR W) :=
  sim_ite hn.none_iff (fun _ _ => trivial) fun _ _ => sim_bind (B_matchP f hn key _) fun _ _ hr => B_valueP hr

theorem B_FindNodeP (f : Nat) {n n' : Ptr} (hn : PR ρ n n') (key : BitVec w) (bits : Int) : NS ρ W (FindNodeP f n key bits : Prog (ND w V) _) (FindNodeP f n' key bits) (PR ρ) :=
  sim_ite hn.none_iff (fun _ _ => trivial) fun _ _ => sim_bind (B_exactMatchP f hn key _) fun _ _ hr => sim_ite hr.none_iff (fun _ _ => trivial) fun _ _ => hr

theorem B_ExactMatchP (f : Nat) {n n' : Ptr} (hn : PR ρ n n') (key : BitVec w) (bits : Int) : NS ρ W (ExactMatchP f n key bits : Prog (ND w V) _) (ExactMatchP f n' key bits) (NOptR W) :=
  sim_bind (B_FindNodeP f hn key bits) fun _ _ hr => B_valueP hr

theorem B_DeleteP (f : Nat) {n n' : Ptr} (hn : PR ρ n n') (key : BitVec w) (bits : Int) : NS ρ W (DeleteP f n key bits : Prog (ND w V) _) (DeleteP f n' key bits) (NDelR ρ) :=
  sim_ite hn.none_iff (fun _ _ => ⟨hn, rfl⟩) fun _ _ => B_delP f hn key _

omit [KeySize w] in
theorem B_EnumerateP (f : Nat) {n n' : Ptr} (hn : PR ρ n n') : NS ρ W (EnumerateP f n : Prog (ND w V) _) (EnumerateP f n') (NLR W) :=
  sim_ite hn.none_iff (fun _ _ => trivial) fun _ _ => B_enumerateP f hn

/-- numtree. -/
def numBlind (f : Nat) (w : Nat) (V : Type) [LawfulKeySize w] [Inhabited V] : (numImpl f w V).toO.Blind where
  rootR := PR
  cellR ρ := NCellR ρ Eq
  root_mono h hp := hp.mono h
  cell_mono h c := c.mono h fun _ _ e => e
  fresh_r _ _ := trivial
  fresh_ok h := ⟨none, h, rfl⟩
  cow_r ρ _ o r q hr := by
    cases o with
    | insert k b v => exact B_InsertP rfl f hr k b rfl
    | delete k b => exact sim_bind (B_DeleteP f hr k b) fun _ _ hx => hx.1
  inp_r ρ _ o r q hr := by
    cases o with
    | insert k b v => exact B_InplaceInsertP rfl f hr k b rfl
    | delete k b => exact hr

end Verif.NumHeap
