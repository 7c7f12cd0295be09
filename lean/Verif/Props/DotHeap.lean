import Verif.Dot.Heap
import Verif.Props.Dot
import Verif.Props.Goroutines
import Verif.Pipe.Loops

/-!
# Property theorems for Dot among goroutines (C107)

As C57, with Dot among the reads of the goroutines.  A drawing is right if it is the drawing of some tree (in the sense of C51) and the
entries it shows are those the calls left, each once.
-/

namespace Verif.Props
open Verif Verif.Heap Verif.Dot Verif.Levels Prog

/-- The lines `x` draw the tree `t`: the positions in breadth-first order are numbered, every position has its node line, and one edge
line to its children if it has a child. -/
def Draws {D : Type} (t : BTree D) (x : List (Line D)) : Prop :=
  ∃ slots : List Pos, (∀ p, p ∈ slots ↔ Drawn t p) ∧ slots.Pairwise Before ∧
    ∃ perPos : Pos → List (Line D), x = slots.flatMap perPos ∧
      ∀ i p, slots[i]? = some p →
        (¬ HasKids t p → perPos p = [.node i (dataAt t p)]) ∧
        (HasKids t p → ∃ a b, slots[a]? = some (p ++ [false]) ∧ slots[b]? = some (p ++ [true]) ∧
          perPos p = [.node i (dataAt t p), .edge i a b])

theorem draws_of_dot {D : Type} {t : BTree D} {x : List (Line D)} (h : dot t = some x) : Draws t x := by
  obtain ⟨slots, h1, h2, f, h3, h4⟩ := C51_dot t
  rw [h] at h3
  exact ⟨slots, h1, h2, f, Option.some.inj h3, h4⟩

theorem shown_perm {D : Type} {t : BTree D} {x : List (Line D)} (h : dot t = some x) : (x.filterMap Line.shown).Perm t.toPre := by
  simpa using dotLoop_shown h

theorem toPre_enumerate {K V : Type} (t : RB.RTree K V) : (t.toPre.map fun d => (d.key, d.value)).Perm (RB.enumerate t) := by
  induction t with
  | nil => exact .refl _
  | node d l r ihl ihr =>
    simp only [BTree.toPre, RB.enumerate, List.map_cons, List.map_append]
    exact ((ihl.append ihr).cons _).trans List.perm_middle.symm

/-- A read that may be a drawing: `none` is Dot. -/
def drawRead {D Q A : Type} (rd : Q → Ptr → Prog D A) {L : Type} (dt : Ptr → Prog D (List (Line L))) : Option Q → Ptr → Prog D (A ⊕ List (Line L))
  | some q, r => rd q r >>= fun x => pure (.inl x)
  | none, r => dt r >>= fun x => pure (.inr x)

/-- The right answers if `P` says which answers to other reads and `G` which drawings are right. -/
def DrawRight {Q O A L : Type} (P : Q → List O → A → Prop) (G : List O → List (Line L) → Prop) : Option Q → List O → A ⊕ List (Line L) → Prop
  | some q, ops, .inl x => P q ops x
  | none, ops, .inr x => G ops x
  | _, _, _ => False

theorem drawRead_ok {D Q A O L : Type} {rd : Q → Ptr → Prog D A} {dt : Ptr → Prog D (List (Line L))} {P : Q → List O → A → Prop} {G : List O → List (Line L) → Prop}
    {h : Heap D} {r : Ptr} {l : List O} (h1 : ∀ q, wp (fun _ => False) (rd q r) (fun x h' => h' = h ∧ P q l x) h)
    (h2 : wp (fun _ => False) (dt r) (fun x h' => h' = h ∧ G l x) h) (q : Option Q) :
    wp (fun _ => False) (drawRead rd dt q r) (fun x h' => h' = h ∧ DrawRight P G q l x) h := by
  cases q with
  | none => simp only [drawRead, wp_bind, wp_pure]; exact h2
  | some q => simp only [drawRead, wp_bind, wp_pure]; exact h1 q

section Numtree
open Verif.Num Verif.NumHeap
variable {w : Nat} {V : Type} [LawfulKeySize w] [Inhabited V]

/-- A right drawing of a tree made by the calls `ops`: the nodes shown that carry values are the list of entries. -/
def NumDrawn (ops : List (NumOp w V)) (x : List (Line (ND w V))) : Prop :=
  (∃ t, Draws t x) ∧ ∃ l, NumRight .list ops (.list l) ∧ ((x.filterMap Line.shown).filter fun n => n.leaf).Perm l

omit [LawfulKeySize w] [Inhabited V] in
theorem toPre_leaves (t : NTree w V) : (t.toPre.filter fun n => n.leaf) = Num.enumerate t := by
  induction t with
  | nil => rfl
  | node n l r ihl ihr =>
    simp only [BTree.toPre, Num.enumerate, List.filter_cons, List.filter_append, ihl, ihr]
    split <;> simp

theorem numDraw_ok {f g : Nat} (hf : w + 2 ≤ f) (hg : 2 ^ (w + 2) ≤ g) (h : Heap (ND w V)) (r : Ptr) (l : List (NumOp w V)) (F : Addr → Prop) (ho : (numImpl f w V).toO.Obj h r l F) :
    wp (fun _ => False) (DotP g r) (fun x h' => h' = h ∧ NumDrawn l x) h := by
  obtain ⟨A, rfl, a1, a2, _, _⟩ := ho
  have a2 : ATree.erase A = Num.run l := a2
  have hh : A.height < f := by
    have := run_height (w := w) (V := V) l
    have e := erase_height A
    rw [a2] at e; omega
  have hs : 2 * A.size + 2 ≤ g := by
    have h1 := Pipe.size_height (Num.run l)
    have h2 : 2 ^ (Num.run l).height ≤ 2 ^ (w + 1) := Nat.pow_le_pow_right (by omega) (run_height l)
    rw [← Dot.erase_size, a2]
    have h3 : 2 ^ (w + 2) = 2 * 2 ^ (w + 1) := by rw [Nat.pow_succ]; omega
    omega
  refine wp_conseq (DotP_spec a1 hs) ?_
  rintro x h' ⟨rfl, hd⟩
  refine ⟨rfl, ⟨_, draws_of_dot hd⟩, Num.enumerate (ATree.erase A), ?_, ?_⟩
  · obtain ⟨y, h1, h2, h3⟩ := (observes_of_rep hf a1 a2).2.2
    rw [answer_of_wp (EnumerateP_spec hh a1)] at h1
    cases h1
    exact ⟨_, rfl, h2, h3⟩
  · rw [← toPre_leaves]
    exact (shown_perm hd).filter _

/-- C107 (numtree): goroutines as in C57 may also draw the trees; Dot only reads, and draws the entries of the tree asked for. -/
theorem C107_numtree {f g : Nat} (hf : w + 2 ≤ f) (hg : 2 ^ (w + 2) ≤ g) (ops : List (SOp (NumOp w V)))
    (hl : (Book.init : Book (NumOp w V)).LegalAll2 (numImpl f w V).toO.cowOk (numImpl f w V).toO.inpOk ops)
    {T : Type} [DecidableEq T] (script : T → List (TOp (NumOp w V) (Option (NumQ w))))
    (hs : ∀ t, (Book.init.exec ops).LegalT (numImpl f w V).toO.cowOk (numImpl f w V).toO.inpOk (Book.init.exec ops).next (script t))
    (hN : ∃ N, ∀ t, (script t).length ≤ N) (sched : List T) :
    ∃ s, OStore.init.exec (numImpl f w V).toO ops = .ok s ∧ ∀ t,
      let prog := fun t => sessionP (numImpl f w V).toO (drawRead (numRead f) (DotP g)) (script t) s.roots
      Promise s (Book.init.exec ops) script prog (DrawRight NumRight NumDrawn) (fun h r l => Observes f h r (lastWrite (l.map NumOp.abs)))
        ((Fleet.start s.heap prog).exec sched) sched t := by
  obtain ⟨N, hN⟩ := hN
  refine obj_fleet (Impl.toO_lawful (numImpl_lawful (V := V) hf (ops.length + N))) ops hl (drawRead (numRead f) (DotP g)) (DrawRight NumRight NumDrawn) _ ?_ ?_ script (by omega)
    (fun t => by have := hN t; omega) hs sched
  · exact fun q h r l F _ ho => drawRead_ok (fun q => numRead_ok hf q h r l F ho) (numDraw_ok hf hg h r l F ho) q
  · rintro h r l F _ ⟨A, rfl, a1, a2, _, _⟩
    exact observes_of_rep hf a1 a2

end Numtree

section Strtree
open Verif.RB Verif.RBHeap
variable {V : Type} [Inhabited V]

/-- A right drawing of a tree made by the calls `ops`. -/
def KVDrawn (cmp : Bytes → Bytes → Int) (ops : List (KOp Bytes V)) (x : List (Line (RD Bytes V))) : Prop :=
  (∃ t, Draws t x) ∧ ∃ l, KVRight cmp .list ops (.list l) ∧ ((x.filterMap Line.shown).map fun d => (d.key, d.value)).Perm l

theorem kvDraw_ok {cmp : Bytes → Bytes → Int} (hc : LawfulCmp cmp) {f n : Nat} (hf : 2 * n + 3 ≤ f) (h : Heap (RD Bytes V)) (r : Ptr) (l : List (KOp Bytes V)) (F : Addr → Prop) (hn : l.length ≤ n) (ho : (rbImpl cmp f).toO.Obj h r l F) :
    wp (fun _ => False) (DotP f r) (fun x h' => h' = h ∧ KVDrawn cmp l x) h := by
  obtain ⟨A, rfl, a1, a2, _, _⟩ := ho
  have a2 : ATree.erase A = (RB.run cmp l).getD .nil := a2
  have ob := kvObserves_of_rep hc (f := f) (by omega) hn a1 a2
  have hh := rb_fuel hc.refl (f := f) (by omega) hn a2
  have hs : A.size ≤ n := by
    have := run_size hc.refl (run_getD (V := V) hc.refl l).1
    rw [← Dot.erase_size, a2]; omega
  refine wp_conseq (DotP_spec a1 (by omega)) ?_
  rintro x h' ⟨rfl, hd⟩
  refine ⟨rfl, ⟨_, draws_of_dot hd⟩, RB.enumerate (ATree.erase A), ?_, ?_⟩
  · obtain ⟨y, h1, h2⟩ := ob.2
    rw [answer_of_wp (enumerateP_spec hh a1)] at h1
    cases h1
    exact ⟨_, rfl, h2⟩
  · exact ((shown_perm hd).map _).trans (toPre_enumerate _)

/-- C107 (strtree). -/
theorem C107_strtree {cmp : Bytes → Bytes → Int} (hc : LawfulCmp cmp) (ops : List (SOp (KOp Bytes V))) {f N : Nat} (hf : 2 * (ops.length + N) + 3 ≤ f)
    (hl : (Book.init : Book (KOp Bytes V)).LegalAll2 (rbImpl cmp f).toO.cowOk (rbImpl cmp f).toO.inpOk ops)
    {T : Type} [DecidableEq T] (script : T → List (TOp (KOp Bytes V) (Option KVQ))) (hN : ∀ t, (script t).length ≤ N)
    (hs : ∀ t, (Book.init.exec ops).LegalT (rbImpl cmp f).toO.cowOk (rbImpl cmp f).toO.inpOk (Book.init.exec ops).next (script t))
    (sched : List T) :
    ∃ s, OStore.init.exec (rbImpl cmp f).toO ops = .ok s ∧ ∀ t,
      let prog := fun t => sessionP (rbImpl cmp f).toO (drawRead (kvRead cmp f) (DotP f)) (script t) s.roots
      Promise s (Book.init.exec ops) script prog (DrawRight (KVRight cmp) (KVDrawn cmp)) (KVObserves cmp f) ((Fleet.start s.heap prog).exec sched) sched t := by
  refine obj_fleet (Impl.toO_lawful (rbImpl_lawful (V := V) hc.refl hf)) ops hl (drawRead (kvRead cmp f) (DotP f)) (DrawRight (KVRight cmp) (KVDrawn cmp)) _ ?_ ?_ script (by omega)
    (fun t => by have := hN t; omega) hs sched
  · exact fun q h r l F hn ho => drawRead_ok (fun q => kvRead_ok hc hf q h r l F hn ho) (kvDraw_ok hc hf h r l F hn ho) q
  · rintro h r l F hn ⟨A, rfl, a1, a2, _, _⟩
    exact kvObserves_of_rep hc (by omega) hn a1 a2

end Strtree

section Dltree
open Verif.DL Verif.DLHeap
variable {V : Type} [Inhabited V]

/-- A right drawing of a tree made by the calls `ops`; a nil tree gives no lines. -/
def LabelDrawn (ops : List (DL.Op V)) (x : List (Line (RB.RD Bytes V))) : Prop :=
  (x = [] ∨ ∃ t, Draws t x) ∧ ∃ l, LabelRight .list ops (.list l) ∧ ((x.filterMap Line.shown).map fun d => (d.key, d.value)).Perm l

omit [Inhabited V] in
theorem dltreeDotP_spec {W : Addr → Prop} {E : Type} {M : DLMem V E} {m f : Nat} {h : Heap E} {t : Ptr} {A : ATree (RB.RD Bytes V)} (hL : LRep M m h t A) (hf : 2 * m + 2 ≤ f) :
    wp W (dltreeDotP M f t) (fun x h' => h' = h ∧ dltreeDot (treeOf t A) = some x) h := by
  unfold dltreeDotP
  cases t with
  | none => exact ⟨rfl, rfl⟩
  | some b =>
    simp only [reduceCtorEq, if_false]
    rw [wp_bind, wp_rootP hL.cell.1]
    have := hL.size
    obtain ⟨slots, _, hd⟩ := dot_spec (ATree.erase A)
    refine wp_conseq (on_read M.kR (dotLoopP_readOnly _ _ _) (x := slots.flatMap (linesAt (ATree.erase A) slots)) (wp_conseq (DotP_spec hL.rep (by omega)) ?_)) ?_
    · rintro x h' ⟨e, hx⟩
      rw [hd] at hx
      exact ⟨e, (Option.some.inj hx).symm⟩
    · rintro x h' ⟨e, rfl⟩
      exact ⟨e, hd⟩

theorem labelDraw_ok {st : Bool} {f n : Nat} (hf : 2 * n + 3 ≤ f) (h : Heap (LD V)) (r : Ptr) (l : List (DL.Op V)) (F : Addr → Prop) (hn : l.length ≤ n) (ho : (dlImpl st f).Obj h r l F) :
    wp (fun _ => False) (dltreeDotP lm f r) (fun x h' => h' = h ∧ LabelDrawn l x) h := by
  obtain ⟨h0, A, hL, hr, _⟩ := ho
  refine wp_conseq (dltreeDotP_spec hL (by omega)) ?_
  rintro x h' ⟨rfl, hd⟩
  have hp : ((x.filterMap Line.shown).map fun d => (d.key, d.value)).Perm (RB.enumerate (ATree.erase A)) := by
    cases r with
    | none => have : A = .nil := hL.cell; subst this; cases hd; exact .refl _
    | some b => exact ((shown_perm hd).map _).trans (toPre_enumerate _)
  refine ⟨rfl, ?_, _, ?_, hp⟩
  · cases r with
    | none => cases hd; exact .inl rfl
    | some b => exact .inr ⟨_, draws_of_dot hd⟩
  · rintro ps rfl hp
    obtain ⟨_, a2, a3, _⟩ := dl_run_facts hp hr
    rw [RawEnumerate, hL.rootOf] at a2 a3
    exact ⟨_, rfl, a2, a3⟩

/-- C107 (dltree). -/
theorem C107_dltree (st : Bool) (ops : List (SOp (DL.Op V))) {f N : Nat} (hf : 2 * (ops.length + N) + 3 ≤ f)
    (hl : (Book.init : Book (DL.Op V)).LegalAll2 dlCow (dlInp st) ops)
    {T : Type} [DecidableEq T] (script : T → List (TOp (DL.Op V) (Option LabelQ))) (hN : ∀ t, (script t).length ≤ N)
    (hs : ∀ t, (Book.init.exec ops).LegalT dlCow (dlInp st) (Book.init.exec ops).next (script t)) (sched : List T) :
    ∃ s, OStore.init.exec (dlImpl st f) ops = .ok s ∧ ∀ t,
      let prog := fun t => sessionP (dlImpl st f) (drawRead (labelRead f) (dltreeDotP lm f)) (script t) s.roots
      Promise s (Book.init.exec ops) script prog (DrawRight LabelRight LabelDrawn) (DLShows f) ((Fleet.start s.heap prog).exec sched) sched t := by
  refine obj_fleet (dlImpl_lawful (V := V) st hf) ops hl (drawRead (labelRead f) (dltreeDotP lm f)) (DrawRight LabelRight LabelDrawn) _ ?_ ?_ script (by omega)
    (fun t => by have := hN t; omega) hs sched
  · exact fun q h r l F hn ho => drawRead_ok (fun q => labelRead_ok hf q h r l F hn ho) (labelDraw_ok hf h r l F hn ho) q
  · rintro h r l F hn ho
    exact dlShows_of_obj (by omega) ho

end Dltree

/-! ## Concrete cases -/

instance {A L : Type} [DecidableEq A] [DecidableEq L] : DecidableEq (List (Option (A ⊕ List (Line L)))) :=
  have : DecidableEq (A ⊕ List (Line L)) := inferInstance
  inferInstance

instance : DecidableEq (RB.RD Bytes Nat) := inferInstance
instance : DecidableEq (Reply Nat (Bytes × Nat)) := inferInstance

section
open Verif.RB Verif.RBHeap

/-- One goroutine draws a shared tree of the case of C57 and one derived from it, the other deletes from the shared tree and draws the
result. -/
def kvDrawScript : Fin 2 → List (TOp (KOp Bytes Nat) (Option KVQ))
  | 0 => [.read 2 none, .call (.cow 2 (.insert [3] 3)), .read 3 none]
  | 1 => [.call (.cow 2 (.delete [2])), .read 3 none, .read 2 (some .list)]

example : finals (rbImpl compareBytes 20).toO (drawRead (kvRead compareBytes 20) (DotP 20)) kvShared 2 kvDrawScript (turns 2 200 (by decide)) =
    some [some [some (.inr [.node 0 (some ⟨[2], 2, false⟩), .edge 0 1 2, .node 1 (some ⟨[1], 1, true⟩), .node 2 none]),
        some (.inr [.node 0 (some ⟨[2], 2, false⟩), .edge 0 1 2, .node 1 (some ⟨[1], 1, true⟩), .node 2 (some ⟨[3], 3, true⟩)])],
      some [some (.inr [.node 0 (some ⟨[1], 1, false⟩)]), some (.inl (.list [([1], 1), ([2], 2)]))]] := by decide +kernel

/-- The case meets the hypotheses (the history is that of C57). -/
example : ∀ t, (Book.init.exec kvShared).LegalT (rbImpl compareBytes 20).toO.cowOk (rbImpl compareBytes 20).toO.inpOk (Book.init.exec kvShared).next (kvDrawScript t) := by
  intro t
  match t with
  | 0 => exact ⟨⟨fun _ _ => trivial, trivial⟩, trivial⟩
  | 1 => exact ⟨⟨fun _ _ => trivial, trivial⟩, trivial⟩

end

section
open Verif.Num Verif.NumHeap

def numDrawScript : Fin 2 → List (TOp (NumOp 32 Nat) (Option (NumQ 32)))
  | 0 => [.call (.cow 1 (.insert 0x0B000000#32 8 2)), .read 2 none]
  | 1 => [.call (.cow 1 (.delete 0x0A000000#32 8)), .read 2 none, .read 1 none]

/-- The node joining the two networks is drawn too; it carries no value. -/
example : finals (numImpl 34 32 Nat).toO (drawRead (numRead 34) (DotP (2 ^ 34))) [.fresh, .cow 0 (.insert 0x0A000000#32 8 1)] 2 numDrawScript (turns 2 100 (by decide)) =
    some [some [some (.inr [.node 0 (some ⟨0x0A000000#32, 7, false, 0⟩), .edge 0 1 2, .node 1 (some ⟨0x0A000000#32, 8, true, 1⟩),
        .node 2 (some ⟨0x0B000000#32, 8, true, 2⟩)])],
      some [some (.inr [.node 0 none]), some (.inr [.node 0 (some ⟨0x0A000000#32, 8, true, 1⟩)])]] := by decide +kernel

example : ∀ t, (Book.init.exec [.fresh, .cow 0 (.insert 0x0A000000#32 8 1)]).LegalT (numImpl 34 32 Nat).toO.cowOk (numImpl 34 32 Nat).toO.inpOk 1 (numDrawScript t) := by
  intro t
  match t with
  | 0 => exact ⟨⟨fun _ _ => trivial, trivial⟩, trivial⟩
  | 1 => exact ⟨⟨fun _ _ => trivial, trivial⟩, trivial⟩

end

section
open Verif.DL Verif.DLHeap

/-- Tree 0 is nil; one goroutine draws it and a tree with two labels, the other draws what is left after the only label is deleted. -/
def labelDrawScript : Fin 2 → List (TOp (DL.Op Nat) (Option LabelQ))
  | 0 => [.call (.cow 1 (.rawInsert [66] 2)), .read 2 none, .read 0 none]
  | 1 => [.call (.cow 1 (.delete [97])), .read 2 none, .read 1 (some (.raw [65]))]

example : finals (dlImpl false 20) (drawRead (labelRead 20) (dltreeDotP lm 20)) [.fresh, .cow 0 (.insert [97] 1)] 2 labelDrawScript (turns 2 200 (by decide)) =
    some [some [some (.inr [.node 0 (some ⟨[65], 1, false⟩), .edge 0 1 2, .node 1 none, .node 2 (some ⟨[66], 2, true⟩)]), some (.inr [])],
      some [some (.inr [.node 0 none]), some (.inl (.val (some 1)))]] := by decide +kernel

example : ∀ t, (Book.init.exec [.fresh, .cow 0 (.insert [97] 1)]).LegalT dlCow (dlInp false) 1 (labelDrawScript t) := by
  intro t
  match t with
  | 0 => exact ⟨⟨fun _ _ => ⟨_, .rawInsert⟩, trivial⟩, trivial⟩
  | 1 => exact ⟨⟨fun _ _ => ⟨_, .delete (means_plain (a := 97) (dot := false) (by decide))⟩, trivial⟩, trivial⟩

end

end Verif.Props
