import Verif.Pipe.Rules
import Verif.NumHeap.Model
import Verif.RBHeap.Model
import Verif.Heap.Lift

/-!
# The walks of numtree, strtree and dltree as goroutine code

Each field that Go reads is one step: between two of them the caller may do anything.
-/

namespace Verif.Pipe
open Verif.Heap Verif.Heap.Prog Verif.Heap.ATree

variable {D X Y B : Type} {w : Nat} {V : Type} {pin : Pin X}

/-- numtree/node32.go:307-320 `enumerate`, node64.go:277-289.  `fld` gives the fields `Leaf`, `chld[0]` and `chld[1]`; what is sent is
the pointer.  A nil receiver is a panic. -/
def numWalk (fld : X → Option (Bool × Ptr × Ptr)) (item : Addr → B) : Nat → Ptr → Gen X B → Gen X B
  | 0, _, _ => .fail
  | _ + 1, none, _ => .fail
  | f + 1, some a, k =>
    let right := .read a fun x => match fld x with
      | none => .fail
      | some (_, _, r) => if r = none then k else numWalk fld item f r k
    let left := .read a fun x => match fld x with
      | none => .fail
      | some (_, l, _) => if l = none then right else numWalk fld item f l right
    .read a fun x => match fld x with
      | none => .fail
      | some (leaf, _, _) => if leaf then .send (item a) left else left

/-- numtree/node32.go:88-104 `Enumerate`, node64.go:96-110: the goroutine it starts. -/
def numGen (fld : X → Option (Bool × Ptr × Ptr)) (item : Addr → B) (f : Nat) (n : Ptr) : Gen X B :=
  if n = none then .done else numWalk fld item f n .done

/-- strtree/node.go:295-305 `enumerate`, dltree/node.go:308-330 `enumerate` and `rawEnumerate`: `fld` gives key and value and the two
children, `item` what is sent (`none`: making it panics). -/
def rbWalk (fld : X → Option (Y × Ptr × Ptr)) (item : Y → Option B) : Nat → Ptr → Gen X B → Gen X B
  | 0, _, _ => .fail
  | _ + 1, none, k => k
  | f + 1, some a, k =>
    let right := .read a fun x => match fld x with
      | none => .fail
      | some (_, _, r) => rbWalk fld item f r k
    let mid := .read a fun x => match fld x with
      | none => .fail
      | some (y, _, _) => match item y with
        | none => .fail
        | some b => .send b right
    .read a fun x => match fld x with
      | none => .fail
      | some (_, l, _) => rbWalk fld item f l mid

/-! ## What they send -/

/-- The goroutine's knowledge covers the tree. -/
def Pinned (fld : X → Option (Y × Ptr × Ptr)) (g : D → Y) (pin : Pin X) : ATree D → Prop
  | .nil => True
  | .node ad l r => (∃ x, pin ad.1 = some x ∧ fld x = some (g ad.2, ptr l, ptr r)) ∧ Pinned fld g pin l ∧ Pinned fld g pin r

theorem pinned_of_rep {E : Type} (K : Kind D E) {φ : Cell E → X} {fld : X → Option (Y × Ptr × Ptr)} {g : D → Y}
    (hf : ∀ c : Cell D, fld (φ (c.map K.inj)) = some (g c.d, c.c0, c.c1)) {h : Heap E} {F : Addr → Prop} {A : ATree D} (hA : Rep (K.view h) A)
    (hF : ∀ a, 1 ≤ cnt a A → F a) : Pinned fld g (pinOf φ h F) A := by
  induction A with
  | nil => trivial
  | node ad l r ihl ihr =>
    refine ⟨⟨_, pinOf_some (hF _ ?_) (K.view_mem.1 hA.1), hf _⟩, ihl hA.2.2.1 fun a ha => hF a ?_, ihr hA.2.2.2 fun a ha => hF a ?_⟩
    · simp; omega
    · simp; omega
    · simp; omega

/-- Addresses and payloads of the leaf nodes in the order of numtree's walk. -/
def leaves (p : D → Bool) : ATree D → List (Addr × D)
  | .nil => []
  | .node ad l r => (if p ad.2 then [ad] else []) ++ leaves p l ++ leaves p r

theorem numWalk_emits {fld : X → Option (Bool × Ptr × Ptr)} {item : Addr → B} {p : D → Bool} : ∀ {f : Nat} {A : ATree D}, A.height < f → A ≠ .nil →
    Pinned fld p pin A → Emits pin (numWalk fld item f (ptr A)) ((leaves p A).map fun ad => item ad.1) := by
  intro f
  induction f with
  | zero => intro A h; omega
  | succ f ih =>
    intro A hf hA hp
    cases A with
    | nil => exact absurd rfl hA
    | node ad l r =>
      obtain ⟨⟨x, h1, h2⟩, h3, h4⟩ := hp
      simp only [BTree.height] at hf
      have hr : Emits pin (fun k => .read ad.1 fun x => match fld x with
          | none => .fail
          | some (_, _, r) => if r = none then k else numWalk fld item f r k) ((leaves p r).map fun ad => item ad.1) := by
        refine emits_read (w := fun x k => match fld x with
          | none => .fail
          | some (_, _, r) => if r = none then k else numWalk fld item f r k) h1 ?_
        simp only [h2]
        cases r with
        | nil => exact emits_id
        | node rd rl rr =>
          simp only [ptr_node, reduceCtorEq, if_false]
          exact ih (by omega) (by simp) h4
      have hl : Emits pin (fun k => .read ad.1 fun x => match fld x with
          | none => .fail
          | some (_, l, _) => if l = none then k else numWalk fld item f l k) ((leaves p l).map fun ad => item ad.1) := by
        refine emits_read (w := fun x k => match fld x with
          | none => .fail
          | some (_, l, _) => if l = none then k else numWalk fld item f l k) h1 ?_
        simp only [h2]
        cases l with
        | nil => exact emits_id
        | node rd rl rr =>
          simp only [ptr_node, reduceCtorEq, if_false]
          exact ih (by omega) (by simp) h3
      have hn : Emits pin (fun k => .read ad.1 fun x => match fld x with
          | none => .fail
          | some (leaf, _, _) => if leaf then .send (item ad.1) k else k) (if p ad.2 then [item ad.1] else []) := by
        refine emits_read (w := fun x k => match fld x with
          | none => .fail
          | some (leaf, _, _) => if leaf then .send (item ad.1) k else k) h1 ?_
        simp only [h2]
        cases p ad.2 with
        | true => exact emits_send _
        | false => exact emits_id
      have := (hn.comp hl).comp hr
      have e : (leaves p (.node ad l r)).map (fun ad => item ad.1) = (if p ad.2 then [item ad.1] else []) ++ (leaves p l).map (fun ad => item ad.1) ++
          (leaves p r).map fun ad => item ad.1 := by
        simp only [leaves, List.map_append]
        cases p ad.2 <;> rfl
      rw [e]
      exact this

theorem numGen_out {fld : X → Option (Bool × Ptr × Ptr)} {item : Addr → B} {p : D → Bool} {f : Nat} {A : ATree D} (hf : A.height < f)
    (hp : Pinned fld p pin A) : ∃ n, (numGen fld item f (ptr A)).out pin [] = some ((leaves p A).map fun ad => item ad.1, n) := by
  cases A with
  | nil => exact emits_id.out
  | node ad l r => exact (numWalk_emits hf (by simp) hp).out

/-- Payloads in key order. -/
def inorder : ATree D → List D
  | .nil => []
  | .node ad l r => inorder l ++ ad.2 :: inorder r

theorem rbWalk_emits {fld : X → Option (Y × Ptr × Ptr)} {item : Y → Option B} {g : D → Y} {o : D → B} : ∀ {f : Nat} {A : ATree D}, A.height < f →
    Pinned fld g pin A → (∀ d ∈ inorder A, item (g d) = some (o d)) → Emits pin (rbWalk fld item f (ptr A)) ((inorder A).map o) := by
  intro f
  induction f with
  | zero => intro A h; omega
  | succ f ih =>
    intro A hf hp ho
    cases A with
    | nil => exact emits_id
    | node ad l r =>
      obtain ⟨⟨x, h1, h2⟩, h3, h4⟩ := hp
      simp only [BTree.height] at hf
      have hr : Emits pin (fun k => .read ad.1 fun x => match fld x with
          | none => .fail
          | some (_, _, r) => rbWalk fld item f r k) ((inorder r).map o) := by
        refine emits_read (w := fun x k => match fld x with
          | none => .fail
          | some (_, _, r) => rbWalk fld item f r k) h1 ?_
        simp only [h2]
        exact ih (by omega) h4 fun d hd => ho d (by simp [inorder, hd])
      have hl : Emits pin (fun k => .read ad.1 fun x => match fld x with
          | none => .fail
          | some (_, l, _) => rbWalk fld item f l k) ((inorder l).map o) := by
        refine emits_read (w := fun x k => match fld x with
          | none => .fail
          | some (_, l, _) => rbWalk fld item f l k) h1 ?_
        simp only [h2]
        exact ih (by omega) h3 fun d hd => ho d (by simp [inorder, hd])
      have hn : Emits pin (fun k => .read ad.1 fun x => match fld x with
          | none => .fail
          | some (y, _, _) => match item y with
            | none => .fail
            | some b => .send b k) [o ad.2] := by
        refine emits_read (w := fun x k => match fld x with
          | none => .fail
          | some (y, _, _) => match item y with
            | none => .fail
            | some b => .send b k) h1 ?_
        simp only [h2, ho ad.2 (by simp [inorder])]
        exact emits_send _
      have := (hl.comp hn).comp hr
      have e : (inorder (.node ad l r)).map o = (inorder l).map o ++ [o ad.2] ++ (inorder r).map o := by
        simp [inorder]
      rw [e]
      exact this

theorem flatMap_length_le {ι : Type} {o : ι → List B} {l : List ι} {k : Nat} (h : ∀ x ∈ l, (o x).length ≤ k) : (l.flatMap o).length ≤ l.length * k := by
  induction l with
  | nil => simp
  | cons x l ih =>
    have h1 := h x (by simp)
    have h2 := ih fun y hy => h y (by simp [hy])
    simp only [List.flatMap_cons, List.length_append, List.length_cons, Nat.add_mul]
    omega

end Verif.Pipe
