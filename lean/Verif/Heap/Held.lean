import Verif.Heap.Reach
import Verif.Heap.Lift

/-!
# Cells a pointer keeps alive

A cell is kept alive by a pointer if it can be reached through the two child pointers of cells and the pointers inside their
payloads (`out`).  The garbage collector can free every other cell.
-/

namespace Verif.Heap
open Prog ATree
variable {D E : Type}

/-- The cell at `a` is reachable from the pointer. -/
inductive Held (h : Heap D) (out : D → List Ptr) : Ptr → Addr → Prop
  | here {a : Addr} {c : Cell D} : h.mem a = some c → Held h out (some a) a
  | child {a b : Addr} {c : Cell D} (i : Bool) : h.mem a = some c → Held h out (c.child i) b → Held h out (some a) b
  | value {a b : Addr} {c : Cell D} {q : Ptr} : h.mem a = some c → q ∈ out c.d → Held h out q b → Held h out (some a) b

/-- At most `k` cells are kept alive, and each has a payload as `P` says. -/
def Keeps (h : Heap D) (out : D → List Ptr) (p : Ptr) (k : Nat) (P : D → Prop) : Prop :=
  ∃ L : List Addr, L.length ≤ k ∧ ∀ a, Held h out p a → a ∈ L ∧ ∀ c, h.mem a = some c → P c.d

/-- The addresses of a tree. -/
def addrs (A : ATree D) : List Addr := A.toPre.map Prod.fst

@[simp] theorem addrs_nil : addrs (.nil : ATree D) = [] := rfl
@[simp] theorem addrs_node (ad : Addr × D) (l r : ATree D) : addrs (.node ad l r) = ad.1 :: (addrs l ++ addrs r) := by
  simp [addrs, BTree.toPre]

theorem addrs_length (A : ATree D) : (addrs A).length = (erase A).size := by
  induction A with
  | nil => rfl
  | node ad l r ihl ihr => simp [ihl, ihr]

variable {h : Heap E} {out : E → List Ptr} {K : Kind D E}

theorem held_none {a : Addr} : ¬ Held h out none a := by intro h; cases h

theorem held_some {a x : Addr} {c : Cell E} (hc : h.mem a = some c) (hx : Held h out (some a) x) :
    x = a ∨ (∃ i, Held h out (c.child i) x) ∨ ∃ q ∈ out c.d, Held h out q x := by
  cases hx with
  | here _ => exact .inl rfl
  | child i h1 h2 => rw [hc] at h1; cases h1; exact .inr (.inl ⟨i, h2⟩)
  | value h1 h2 h3 => rw [hc] at h1; cases h1; exact .inr (.inr ⟨_, h2, h3⟩)

/-- From the root of a tree: its nodes and what their payloads lead to. -/
theorem held_tree {A : ATree D} (hA : Rep (K.view h) A) {x : Addr} (hx : Held h out (ptr A) x) :
    (x ∈ addrs A ∧ ∃ d ∈ (erase A).toPre, ∀ c, h.mem x = some c → c.d = K.inj d) ∨ ∃ d ∈ (erase A).toPre, ∃ q ∈ out (K.inj d), Held h out q x := by
  induction A with
  | nil => exact (held_none hx).elim
  | node ad l r ihl ihr =>
    obtain ⟨h1, _, h3, h4⟩ := hA
    have h1 := K.view_mem.1 h1
    rcases held_some h1 hx with rfl | ⟨i, hi⟩ | ⟨q, hq, hi⟩
    · refine .inl ⟨by simp, ad.2, by simp [BTree.toPre], fun c hc => ?_⟩
      rw [h1] at hc; cases hc; rfl
    · cases i
      · rcases ihl h3 hi with ⟨a1, d, a2, a3⟩ | ⟨d, a1, a2⟩
        · exact .inl ⟨by simp [a1], d, by simp [BTree.toPre, a2], a3⟩
        · exact .inr ⟨d, by simp [BTree.toPre, a1], a2⟩
      · rcases ihr h4 hi with ⟨a1, d, a2, a3⟩ | ⟨d, a1, a2⟩
        · exact .inl ⟨by simp [a1], d, by simp [BTree.toPre, a2], a3⟩
        · exact .inr ⟨d, by simp [BTree.toPre, a1], a2⟩
    · exact .inr ⟨ad.2, by simp [BTree.toPre], q, hq, hi⟩

/-- The memory is one kind of cells. -/
def Kind.id (D : Type) : Kind D D where
  inj d := d
  prj := some
  prj_inj _ := rfl
  inj_prj _ _ h := by cases h; rfl

theorem Kind.id_view (h : Heap D) : (Kind.id D).view h = h := by
  have : ∀ a, ((Kind.id D).view h).mem a = h.mem a := by
    intro a
    simp only [Kind.view]
    cases h.mem a with
    | none => rfl
    | some c => rfl
  cases h
  simp only [Kind.view, Heap.mk.injEq, and_true]
  funext a
  exact this a

/-- A tree of cells without pointers in payloads. -/
theorem keeps_tree {h : Heap D} {A : ATree D} (hA : Rep h A) :
    Keeps h (fun _ => []) (ptr A) (erase A).size fun d => d ∈ (erase A).toPre := by
  refine ⟨addrs A, by rw [addrs_length]; exact Nat.le_refl _, fun a ha => ?_⟩
  rw [← Kind.id_view h] at hA
  rcases held_tree hA ha with ⟨h1, d, h2, h3⟩ | ⟨d, _, q, hq, _⟩
  · exact ⟨h1, fun c hc => by rw [h3 c hc]; exact h2⟩
  · cases hq

end Verif.Heap
