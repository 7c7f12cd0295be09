import Verif.Core.BTree

/-!
# Memory, programs and their execution

Pointer-level models are written as programs over a memory of cells.  A cell is a Go node with non-pointer fields `d` and
the array `chld [2]*T`.  A program reads a cell, overwrites a cell, allocates a fresh cell, or stops with a panic (nil
dereference) or because the model's loop bound is used up (`fuel`, proved not to happen).

Reads and writes touch a whole cell at once; Go touches single fields.  The difference is invisible to a single thread.
-/

namespace Verif.Heap

/-- Addresses are numbers. -/
scoped macro "Addr" : term => `(Nat)
/-- A Go pointer to a node; `none` is nil. -/
abbrev Ptr := Option Addr

/-- Contents of a node. -/
structure Cell (D : Type) where
  d : D
  c0 : Ptr
  c1 : Ptr
  deriving DecidableEq, Repr

variable {D α β : Type}

/-- `n.chld[b]` -/
def Cell.child (c : Cell D) (b : Bool) : Ptr := if b then c.c1 else c.c0
/-- `n.chld[b] = p` -/
def Cell.setChild (c : Cell D) (b : Bool) (p : Ptr) : Cell D := if b then { c with c1 := p } else { c with c0 := p }

/-- Memory: contents of the allocated addresses, and the next free address. -/
structure Heap (D : Type) where
  mem : Addr → Option (Cell D)
  next : Addr

/-- Memory with nothing allocated. -/
def Heap.empty : Heap D := ⟨fun _ => none, 0⟩
/-- Overwrite a cell. -/
def Heap.put (h : Heap D) (a : Addr) (c : Cell D) : Heap D := ⟨fun x => if x = a then some c else h.mem x, h.next⟩
/-- Allocate a cell (at `h.next`). -/
def Heap.push (h : Heap D) (c : Cell D) : Heap D := ⟨fun x => if x = h.next then some c else h.mem x, h.next + 1⟩

inductive Err where
  | panic
  | fuel
  deriving DecidableEq, Repr

/-- Programs. -/
inductive Prog (D : Type) (α : Type) where
  | ret (x : α)
  | stop (e : Err)
  | read (a : Addr) (k : Cell D → Prog D α)
  | write (a : Addr) (c : Cell D) (k : Prog D α)
  | alloc (c : Cell D) (k : Addr → Prog D α)

namespace Prog

def bind : Prog D α → (α → Prog D β) → Prog D β
  | ret x, f => f x
  | stop e, _ => stop e
  | read a k, f => read a fun c => (k c).bind f
  | write a c k, f => write a c (k.bind f)
  | alloc c k, f => alloc c fun a => (k a).bind f

instance : Monad (Prog D) where
  pure := ret
  bind := bind

/-- Execution.  Reading an unallocated address cannot happen in Go; it is a panic here. -/
def run : Prog D α → Heap D → Except Err (α × Heap D)
  | ret x, h => .ok (x, h)
  | stop e, _ => .error e
  | read a k, h =>
    match h.mem a with
    | some c => (k c).run h
    | none => .error .panic
  | write a c k, h => k.run (h.put a c)
  | alloc c k, h => (k h.next).run (h.push c)

/-- `*p`: nil panics. -/
def load : Ptr → Prog D (Cell D)
  | none => stop .panic
  | some a => read a ret

/-- Assignment to fields of `*p`: nil panics. -/
def upd : Ptr → (Cell D → Cell D) → Prog D Unit
  | none, _ => stop .panic
  | some a, f => read a fun c => write a (f c) (ret ())

/-- `x := dflt; if p != nil { x = k }` -/
def ifNotNil (p : Ptr) (dflt : α) (k : Prog D α) : Prog D α := if p ≠ none then k else ret dflt

/-- `&node{...}` -/
def new (c : Cell D) : Prog D Addr := alloc c ret

/-- The program runs to the end without panic, writes only to allocated addresses in `W`, and ends in a state satisfying `Q`. -/
def wp (W : Addr → Prop) : Prog D α → (α → Heap D → Prop) → Heap D → Prop
  | ret x, Q, h => Q x h
  | stop _, _, _ => False
  | read a k, Q, h => ∃ c, h.mem a = some c ∧ (k c).wp W Q h
  | write a c k, Q, h => W a ∧ (∃ c0, h.mem a = some c0) ∧ k.wp W Q (h.put a c)
  | alloc c k, Q, h => (k h.next).wp W Q (h.push c)

@[simp] theorem wp_pure (W : Addr → Prop) (x : α) (Q : α → Heap D → Prop) (h : Heap D) : wp W (pure x) Q h ↔ Q x h := Iff.rfl

theorem wp_bind' (W : Addr → Prop) (p : Prog D α) (f : α → Prog D β) (Q : β → Heap D → Prop) (h : Heap D) :
    wp W (p.bind f) Q h ↔ wp W p (fun x h' => wp W (f x) Q h') h := by
  induction p generalizing h with
  | ret x => rfl
  | stop e => rfl
  | read a k ih => simp only [bind, wp, ih]
  | write a c k ih => simp only [bind, wp, ih]
  | alloc c k ih => simp only [bind, wp, ih]

@[simp] theorem wp_bind (W : Addr → Prop) (p : Prog D α) (f : α → Prog D β) (Q : β → Heap D → Prop) (h : Heap D) :
    wp W (p >>= f) Q h ↔ wp W p (fun x h' => wp W (f x) Q h') h := wp_bind' W p f Q h

theorem wp_mono {W W' : Addr → Prop} {p : Prog D α} {Q Q' : α → Heap D → Prop} {h : Heap D} (hw : ∀ a, W a → W' a)
    (hq : ∀ x h, Q x h → Q' x h) (hp : wp W p Q h) : wp W' p Q' h := by
  induction p generalizing h with
  | ret x => exact hq _ _ hp
  | stop e => exact hp
  | read a k ih => obtain ⟨c, h1, h2⟩ := hp; exact ⟨c, h1, ih _ h2⟩
  | write a c k ih => exact ⟨hw _ hp.1, hp.2.1, ih hp.2.2⟩
  | alloc c k ih => exact ih _ hp

theorem wp_conseq {W : Addr → Prop} {p : Prog D α} {Q Q' : α → Heap D → Prop} {h : Heap D}
    (hp : wp W p Q h) (hq : ∀ x h, Q x h → Q' x h) : wp W p Q' h := wp_mono (fun _ => id) hq hp

@[simp] theorem wp_load_none (W : Addr → Prop) (Q : Cell D → Heap D → Prop) (h : Heap D) : wp W (load none) Q h ↔ False := Iff.rfl

theorem wp_load {W : Addr → Prop} {a : Addr} {c : Cell D} {Q : Cell D → Heap D → Prop} {h : Heap D} (hc : h.mem a = some c) :
    wp W (load (some a)) Q h ↔ Q c h := by
  simp [load, wp, hc]

theorem wp_upd {W : Addr → Prop} {a : Addr} {c : Cell D} {f : Cell D → Cell D} {Q : Unit → Heap D → Prop} {h : Heap D} (hc : h.mem a = some c) :
    wp W (upd (some a) f) Q h ↔ W a ∧ Q () (h.put a (f c)) := by
  simp [upd, wp, hc]

@[simp] theorem ifNotNil_some (a : Addr) (x : α) (k : Prog D α) : ifNotNil (some a) x k = k := rfl
@[simp] theorem ifNotNil_none (x : α) (k : Prog D α) : ifNotNil none x k = pure x := rfl

@[simp] theorem wp_new {W : Addr → Prop} {c : Cell D} {Q : Addr → Heap D → Prop} {h : Heap D} :
    wp W (new c) Q h ↔ Q h.next (h.push c) := Iff.rfl

/-- What `wp` means for an execution. -/
theorem wp_run {W : Addr → Prop} {p : Prog D α} {Q : α → Heap D → Prop} {h : Heap D} (hp : wp W p Q h) :
    ∃ x h', p.run h = .ok (x, h') ∧ Q x h' ∧ h.next ≤ h'.next ∧ ∀ a, a < h.next → ¬ W a → h'.mem a = h.mem a := by
  induction p generalizing h with
  | ret x => exact ⟨x, h, rfl, hp, Nat.le_refl _, fun _ _ _ => rfl⟩
  | stop e => exact hp.elim
  | read a k ih =>
    obtain ⟨c, h1, h2⟩ := hp
    obtain ⟨x, h', r1, r2⟩ := ih _ h2
    exact ⟨x, h', by simp only [run, h1]; exact r1, r2⟩
  | write a c k ih =>
    obtain ⟨x, h', r1, r2, r3, r4⟩ := ih hp.2.2
    refine ⟨x, h', r1, r2, r3, fun b hb hW => ?_⟩
    rw [r4 b hb hW]
    have : b ≠ a := by rintro rfl; exact hW hp.1
    simp [Heap.put, this]
  | alloc c k ih =>
    obtain ⟨x, h', r1, r2, r3, r4⟩ := ih _ hp
    refine ⟨x, h', r1, r2, by simp [Heap.push] at r3; omega, fun b hb hW => ?_⟩
    rw [r4 b (by simp [Heap.push]; omega) hW]
    have : b ≠ h.next := by omega
    simp [Heap.push, this]

end Prog

/-- Nothing is stored beyond the next free address. -/
def Heap.Ok (h : Heap D) : Prop := ∀ a, h.next ≤ a → h.mem a = none

theorem Heap.Ok.lt {h : Heap D} (hk : h.Ok) {a : Addr} {c : Cell D} (hc : h.mem a = some c) : a < h.next := by
  rcases Nat.lt_or_ge a h.next with e | e
  · exact e
  · rw [hk a e] at hc; cases hc

theorem Heap.Ok.put {h : Heap D} (hk : h.Ok) {a : Addr} {c0 : Cell D} (ha : h.mem a = some c0) (c : Cell D) : (h.put a c).Ok := by
  intro b hb
  have : b ≠ a := by rintro rfl; have := hk.lt ha; simp [Heap.put] at hb; omega
  simp only [Heap.put, this, if_false]; exact hk b hb

theorem Heap.Ok.push {h : Heap D} (hk : h.Ok) (c : Cell D) : (h.push c).Ok := by
  intro b hb
  have hb' : h.next + 1 ≤ b := hb
  have : b ≠ h.next := by omega
  simp only [Heap.push, this, if_false]; exact hk b (by omega)

theorem Heap.ok_empty : (Heap.empty : Heap D).Ok := fun _ _ => rfl

theorem Prog.run_ok {W : Addr → Prop} {p : Prog D α} {Q : α → Heap D → Prop} {h : Heap D} (hp : wp W p Q h) (hk : h.Ok)
    {x : α} {h' : Heap D} (hr : p.run h = .ok (x, h')) : h'.Ok := by
  induction p generalizing h with
  | ret y => cases hr; exact hk
  | stop e => exact hp.elim
  | read a k ih =>
    obtain ⟨c, h1, h2⟩ := hp
    simp only [run, h1] at hr
    exact ih _ h2 hk hr
  | write a c k ih =>
    obtain ⟨_, ⟨c0, h1⟩, h2⟩ := hp
    exact ih h2 (hk.put h1 c) hr
  | alloc c k ih => exact ih _ hp (hk.push c) hr

namespace Heap
@[simp] theorem next_put (h : Heap D) (a : Addr) (c : Cell D) : (h.put a c).next = h.next := rfl
@[simp] theorem next_push (h : Heap D) (c : Cell D) : (h.push c).next = h.next + 1 := rfl
theorem mem_put (h : Heap D) (a b : Addr) (c : Cell D) : (h.put a c).mem b = if b = a then some c else h.mem b := rfl
theorem mem_push (h : Heap D) (b : Addr) (c : Cell D) : (h.push c).mem b = if b = h.next then some c else h.mem b := rfl
@[simp] theorem mem_put_self (h : Heap D) (a : Addr) (c : Cell D) : (h.put a c).mem a = some c := by simp [mem_put]
@[simp] theorem mem_push_self (h : Heap D) (c : Cell D) : (h.push c).mem h.next = some c := by simp [mem_push]
end Heap

/-! ## Annotated trees -/

/-- A tree with the address of every node. -/
abbrev ATree (D : Type) := BTree (Addr × D)

namespace ATree

/-- The pointer to the root. -/
def ptr : ATree D → Ptr
  | .nil => none
  | .node ad _ _ => some ad.1

/-- The tree without addresses. -/
def erase : ATree D → BTree D
  | .nil => .nil
  | .node ad l r => .node ad.2 (erase l) (erase r)

/-- How often an address occurs. -/
def cnt (x : Addr) : ATree D → Nat
  | .nil => 0
  | .node ad l r => (if ad.1 = x then 1 else 0) + cnt x l + cnt x r

/-- The tree is what is in memory. -/
def Rep (h : Heap D) : ATree D → Prop
  | .nil => True
  | .node ad l r => h.mem ad.1 = some ⟨ad.2, ptr l, ptr r⟩ ∧ ad.1 < h.next ∧ Rep h l ∧ Rep h r

@[simp] theorem ptr_nil : ptr (.nil : ATree D) = none := rfl
@[simp] theorem ptr_node (ad : Addr × D) (l r : ATree D) : ptr (.node ad l r) = some ad.1 := rfl
@[simp] theorem erase_nil : erase (.nil : ATree D) = .nil := rfl
@[simp] theorem erase_node (ad : Addr × D) (l r : ATree D) : erase (.node ad l r) = .node ad.2 (erase l) (erase r) := rfl
@[simp] theorem cnt_nil (x : Addr) : cnt x (.nil : ATree D) = 0 := rfl
@[simp] theorem cnt_node (x : Addr) (ad : Addr × D) (l r : ATree D) :
    cnt x (.node ad l r) = (if ad.1 = x then 1 else 0) + cnt x l + cnt x r := rfl
@[simp] theorem rep_nil (h : Heap D) : Rep h .nil := trivial
@[simp] theorem erase_mk2 (ad : Addr × D) (b : Bool) (x y : ATree D) : erase (.mk2 ad b x y) = .mk2 ad.2 b (erase x) (erase y) := by
  cases b <;> rfl
@[simp] theorem ptr_mk2 (ad : Addr × D) (b : Bool) (x y : ATree D) : ptr (.mk2 ad b x y) = some ad.1 := by cases b <;> rfl
@[simp] theorem cnt_mk2 (z : Addr) (ad : Addr × D) (b : Bool) (x y : ATree D) :
    cnt z (.mk2 ad b x y) = (if ad.1 = z then 1 else 0) + cnt z x + cnt z y := by cases b <;> simp [BTree.mk2]; omega
theorem erase_child (t : ATree D) (b : Bool) : erase (t.child b) = (erase t).child b := by
  cases t with
  | nil => rfl
  | node ad l r => cases b <;> rfl

theorem ptr_child (a : Addr) (d : D) (l r : ATree D) (b : Bool) :
    (⟨d, ptr l, ptr r⟩ : Cell D).child b = ptr ((BTree.node (a, d) l r).child b) := by cases b <;> rfl

theorem rep_child {h : Heap D} {t : ATree D} (ht : Rep h t) (b : Bool) : Rep h (t.child b) := by
  cases t with
  | nil => trivial
  | node ad l r => cases b <;> simp [ht.2.2.1, ht.2.2.2]

theorem cnt_child (x : Addr) (ad : Addr × D) (l r : ATree D) (b : Bool) :
    cnt x (BTree.node ad l r) = (if ad.1 = x then 1 else 0) + cnt x ((BTree.node ad l r).child b) + cnt x ((BTree.node ad l r).child (!b)) := by
  cases b <;> simp; omega

theorem height_child_lt (ad : Addr × D) (l r : ATree D) (b : Bool) :
    ((BTree.node ad l r).child b).height < (BTree.node ad l r).height := by
  cases b <;> simp <;> omega

theorem ptr_eq_none {t : ATree D} : ptr t = none ↔ t = .nil := by cases t <;> simp

/-- Cell of a node with child `x` on side `b`. -/
def cell2 (d : D) (b : Bool) (x y : Ptr) : Cell D := if b then ⟨d, y, x⟩ else ⟨d, x, y⟩

@[simp] theorem cell2_d (d : D) (b : Bool) (x y : Ptr) : (cell2 d b x y).d = d := by cases b <;> rfl
@[simp] theorem cell2_child (d : D) (b : Bool) (x y : Ptr) : (cell2 d b x y).child b = x := by cases b <;> rfl
@[simp] theorem cell2_child_not (d : D) (b : Bool) (x y : Ptr) : (cell2 d b x y).child (!b) = y := by cases b <;> rfl
@[simp] theorem cell2_setChild (d : D) (b : Bool) (x y z : Ptr) : (cell2 d b x y).setChild b z = cell2 d b z y := by cases b <;> rfl
@[simp] theorem cell2_setChild_not (d : D) (b : Bool) (x y z : Ptr) : (cell2 d b x y).setChild (!b) z = cell2 d b x z := by cases b <;> rfl

theorem node_cell2 (a : Addr) (d : D) (l r : ATree D) (b : Bool) :
    (⟨d, ptr l, ptr r⟩ : Cell D) = cell2 d b (ptr ((BTree.node (a, d) l r).child b)) (ptr ((BTree.node (a, d) l r).child (!b))) := by
  cases b <;> rfl

theorem rep_mk2 (h : Heap D) (ad : Addr × D) (b : Bool) (x y : ATree D) :
    Rep h (.mk2 ad b x y) ↔ h.mem ad.1 = some (cell2 ad.2 b (ptr x) (ptr y)) ∧ ad.1 < h.next ∧ Rep h x ∧ Rep h y := by
  cases b <;> simp [BTree.mk2, Rep, cell2] <;> intros <;> exact and_comm

/-- Only the nodes of a tree matter for its representation. -/
theorem rep_frame {h h' : Heap D} {t : ATree D} (ht : Rep h t) (hn : h.next ≤ h'.next) (hm : ∀ a, 1 ≤ cnt a t → h'.mem a = h.mem a) : Rep h' t := by
  induction t with
  | nil => trivial
  | node ad l r ihl ihr =>
    obtain ⟨h1, h2, h3, h4⟩ := ht
    refine ⟨?_, by omega, ihl h3 fun a ha => hm a (by simp; omega), ihr h4 fun a ha => hm a (by simp; omega)⟩
    rw [hm ad.1 (by simp; omega)]; exact h1

theorem rep_lt {h : Heap D} {t : ATree D} (ht : Rep h t) {a : Addr} (ha : 1 ≤ cnt a t) : a < h.next := by
  induction t with
  | nil => simp at ha
  | node ad l r ihl ihr =>
    obtain ⟨h1, h2, h3, h4⟩ := ht
    simp only [cnt_node] at ha
    by_cases e : ad.1 = a
    · omega
    · by_cases el : 1 ≤ cnt a l
      · exact ihl h3 el
      · exact ihr h4 (by simp [e] at ha; omega)

theorem rep_zero {h : Heap D} {t : ATree D} (ht : Rep h t) (x : Addr) (hx : h.next ≤ x) : cnt x t = 0 := by
  have := fun q => rep_lt ht (a := x) q; omega

theorem rep_push {h : Heap D} {t : ATree D} (ht : Rep h t) (c : Cell D) : Rep (h.push c) t := by
  refine rep_frame ht (by simp) fun a ha => ?_
  have := rep_lt ht ha
  rw [Heap.mem_push, if_neg (by omega)]

theorem rep_put {h : Heap D} {t : ATree D} (ht : Rep h t) {a : Addr} (ha : cnt a t = 0) (c : Cell D) : Rep (h.put a c) t := by
  refine rep_frame ht (by simp) fun b hb => ?_
  rw [Heap.mem_put, if_neg]; rintro rfl; omega

end ATree
end Verif.Heap

namespace Verif.Heap
variable {D α β : Type}

namespace Prog

/-- Everything below the write set is as before. -/
theorem wp_frame {W : Addr → Prop} {p : Prog D α} {Q : α → Heap D → Prop} {h : Heap D} (hp : wp W p Q h) :
    wp W p (fun x h' => Q x h' ∧ h.next ≤ h'.next ∧ ∀ a, a < h.next → ¬ W a → h'.mem a = h.mem a) h := by
  induction p generalizing h with
  | ret x => exact ⟨hp, Nat.le_refl _, fun _ _ _ => rfl⟩
  | stop e => exact hp.elim
  | read a k ih => obtain ⟨c, h1, h2⟩ := hp; exact ⟨c, h1, ih _ h2⟩
  | write a c k ih =>
    refine ⟨hp.1, hp.2.1, wp_conseq (ih hp.2.2) fun x h' ⟨q, l, e⟩ => ⟨q, l, fun b hb hW => ?_⟩⟩
    rw [e b hb hW]
    have : b ≠ a := by rintro rfl; exact hW hp.1
    simp [Heap.put, this]
  | alloc c k ih =>
    refine wp_conseq (ih _ hp) fun x h' ⟨q, l, e⟩ => ⟨q, by simp [Heap.push] at l; omega, fun b hb hW => ?_⟩
    rw [e b (by simp [Heap.push]; omega) hW]
    have : b ≠ h.next := by omega
    simp [Heap.push, this]

end Prog

/-! ## Zippers of annotated trees -/

/-- An ancestor on the way down: its address, payload, the direction taken and the other subtree. -/
structure AFrame (D : Type) where
  a : Addr
  d : D
  dir : Bool
  sib : ATree D

namespace AFrame
open ATree

/-- The tree around a subtree. -/
def plug : List (AFrame D) → ATree D → ATree D
  | [], t => t
  | F :: L, t => plug L (.mk2 (F.a, F.d) F.dir t F.sib)

/-- Occurrences of an address among ancestors and their other subtrees. -/
def cntC (x : Addr) : List (AFrame D) → Nat
  | [] => 0
  | F :: L => (if F.a = x then 1 else 0) + cnt x F.sib + cntC x L

/-- The ancestors are what is in memory, the innermost pointing to `q`. -/
def RepC (h : Heap D) : Ptr → List (AFrame D) → Prop
  | _, [] => True
  | q, F :: L => h.mem F.a = some (cell2 F.d F.dir q (ptr F.sib)) ∧ F.a < h.next ∧ Rep h F.sib ∧ RepC h (some F.a) L

/-- Address of the innermost ancestor. -/
def top : List (AFrame D) → Ptr
  | [] => none
  | F :: _ => some F.a

@[simp] theorem cntC_nil (x : Addr) : cntC x ([] : List (AFrame D)) = 0 := rfl
@[simp] theorem cntC_cons (x : Addr) (F : AFrame D) (L : List (AFrame D)) :
    cntC x (F :: L) = (if F.a = x then 1 else 0) + cnt x F.sib + cntC x L := rfl
@[simp] theorem top_cons (F : AFrame D) (L : List (AFrame D)) : top (F :: L) = some F.a := rfl
@[simp] theorem top_nil : top ([] : List (AFrame D)) = none := rfl

theorem cnt_plug (x : Addr) (L : List (AFrame D)) (t : ATree D) : cnt x (plug L t) = cnt x t + cntC x L := by
  induction L generalizing t with
  | nil => simp [plug]
  | cons F L ih => simp [plug, ih]; omega

theorem rep_plug {h : Heap D} (L : List (AFrame D)) (t : ATree D) : Rep h (plug L t) ↔ RepC h (ptr t) L ∧ Rep h t := by
  induction L generalizing t with
  | nil => simp [plug, RepC]
  | cons F L ih =>
    simp only [plug, RepC]
    rw [ih, rep_mk2, ptr_mk2]
    constructor
    · rintro ⟨h1, h2, h3, h4, h5⟩; exact ⟨⟨h2, h3, h5, h1⟩, h4⟩
    · rintro ⟨⟨h1, h2, h3, h4⟩, h5⟩; exact ⟨h4, h1, h2, h5, h3⟩

theorem repC_frame {h h' : Heap D} {q : Ptr} {L : List (AFrame D)} (hL : RepC h q L) (hn : h.next ≤ h'.next)
    (hm : ∀ a, 1 ≤ cntC a L → h'.mem a = h.mem a) : RepC h' q L := by
  induction L generalizing q with
  | nil => trivial
  | cons F L ih =>
    obtain ⟨h1, h2, h3, h4⟩ := hL
    refine ⟨?_, by omega, rep_frame h3 hn fun a ha => hm a (by simp; omega), ih h4 fun a ha => hm a (by simp; omega)⟩
    rw [hm F.a (by simp; omega)]; exact h1

theorem repC_lt {h : Heap D} {q : Ptr} {L : List (AFrame D)} (hL : RepC h q L) {a : Addr} (ha : 1 ≤ cntC a L) : a < h.next := by
  induction L generalizing q with
  | nil => simp at ha
  | cons F L ih =>
    obtain ⟨h1, h2, h3, h4⟩ := hL
    simp only [cntC_cons] at ha
    by_cases e : F.a = a
    · omega
    · by_cases el : 1 ≤ cnt a F.sib
      · exact rep_lt h3 el
      · exact ih h4 (by simp [e] at ha; omega)

theorem repC_push {h : Heap D} {q : Ptr} {L : List (AFrame D)} (hL : RepC h q L) (c : Cell D) : RepC (h.push c) q L := by
  refine repC_frame hL (by simp) fun a ha => ?_
  have := repC_lt hL ha
  rw [Heap.mem_push, if_neg (by omega)]

theorem repC_put {h : Heap D} {q : Ptr} {L : List (AFrame D)} (hL : RepC h q L) {a : Addr} (ha : cntC a L = 0) (c : Cell D) : RepC (h.put a c) q L := by
  refine repC_frame hL (by simp) fun b hb => ?_
  rw [Heap.mem_put, if_neg]; rintro rfl; omega

/-- Storing another pointer into the innermost ancestor. -/
theorem repC_setTop {h : Heap D} {q q' : Ptr} {F : AFrame D} {L : List (AFrame D)} (hL : RepC h q (F :: L))
    (ha : cnt F.a F.sib = 0) (hb : cntC F.a L = 0) : RepC (h.put F.a (cell2 F.d F.dir q' (ptr F.sib))) q' (F :: L) := by
  obtain ⟨h1, h2, h3, h4⟩ := hL
  exact ⟨by simp, h2, rep_put h3 ha _, repC_put h4 hb _⟩

end AFrame
end Verif.Heap
