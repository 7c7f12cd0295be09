import Verif.Num.Same
import Verif.Num.History
import Verif.Spec.Subtree

/-! # Nodes of a tree as trees: `Children`, `FindNode`, assignment to `Value` -/

namespace Verif.Num
variable {w : Nat} {V : Type}

/-- numtree/node32.go:129-131 `Children`, numtree/node64.go:68-70; `none` is the panic on a nil node. -/
def Children : NTree w V → Option (NTree w V × NTree w V)
  | .nil => none
  | .node _ l r => some (l, r)

/-- One of the children, nil for a nil node: `if n != nil { l, r := n.Children() … }`. -/
def childOf (b : Bool) (t : NTree w V) : NTree w V :=
  match Children t with
  | none => .nil
  | some (l, r) => if b then r else l

/-- `if r := t.FindNode(key, bits); r != nil { r.Value = value }`, the statement of a client that uses the exported field
(numtree/node32.go:33-34, numtree/node64.go:40-41; iptree/iptree.go:135 does it).  The walk is that of `exactMatch`,
numtree/node32.go:363-397. -/
def assignN [KeySize w] : NTree w V → BitVec w → Nat → V → NTree w V
  | .nil, _, _, _ => .nil
  | .node n l r, key, bits, v =>
    if n.bits > bits then .node n l r
    else if n.bits = bits then
      if n.leaf && agree n.key key n.bits then .node { n with value := v } l r else .node n l r
    else if !agree n.key key n.bits then .node n l r
    else if branch key n.bits then .node n l (assignN r key bits v)
    else .node n (assignN l key bits v) r

/-- A call that makes a tree from a tree. -/
inductive NodeOp (w : Nat) (V : Type) where
  | insert (key : BitVec w) (bits : Int) (value : V)
  | delete (key : BitVec w) (bits : Int)
  | assign (key : BitVec w) (bits : Int) (value : V)
  | find (key : BitVec w) (bits : Int)
  | child (b : Bool)

/-- What the caller means by the call. -/
def NodeOp.abs : NodeOp w V → NodeCall V
  | .insert k b v => .insert (Verif.sig k (clampSpec w b)) v
  | .delete k b => .delete (Verif.sig k (clampSpec w b))
  | .assign k b v => .assign (Verif.sig k (clampSpec w b)) v
  | .find k b => .find (Verif.sig k (clampSpec w b))
  | .child b => .child b

/-- Run a history (newest call first) from the empty tree. -/
def runN [KeySize w] [Inhabited V] : List (NodeOp w V) → NTree w V
  | [] => .nil
  | .insert k b v :: ops => Insert (runN ops) k b v
  | .delete k b :: ops => (Delete (runN ops) k b).1
  | .assign k b v :: ops => assignN (runN ops) k (clamp w b) v
  | .find k b :: ops => FindNode (runN ops) k b
  | .child b :: ops => childOf b (runN ops)

theorem childOf_node (b : Bool) (n : ND w V) (l r : NTree w V) : childOf b (.node n l r) = if b then r else l := rfl

theorem childOf_eq (b : Bool) (t : NTree w V) : childOf b t = t.child b := by
  cases t with
  | nil => cases b <;> rfl
  | node n l r => cases b <;> rfl

/-- The prefix of the top node is the longest one that contains all entries. -/
theorem WF.isMeet {P : List Bool} {n : ND w V} {l r : NTree w V} (h : WF P (.node n l r)) : (den (.node n l r)).IsMeet n.sig := by
  refine ⟨fun q v hq => h.den_node_prefix hq, fun p' hp => ?_⟩
  by_cases hlf : n.leaf = true
  · exact hp n.sig n.value (by rw [h.den_self]; simp [hlf])
  · obtain ⟨hl, hr⟩ := h.2.2.1 (by simpa using hlf)
    obtain ⟨q0, v0, hq0⟩ := h.2.2.2.1.exists_den hl
    obtain ⟨q1, v1, hq1⟩ := h.2.2.2.2.exists_den hr
    have e0 := hq0
    have e1 := hq1
    rw [h.den_left] at e0
    rw [h.den_right] at e1
    have p0 : n.sig ++ [false] <+: q0 := h.2.2.2.1.den_prefix hq0
    have p1 : n.sig ++ [true] <+: q1 := h.2.2.2.2.den_prefix hq1
    rw [if_pos p0] at e0
    rw [if_pos p1] at e1
    have a0 := hp _ _ e0
    have a1 := hp _ _ e1
    by_cases hlen : p'.length ≤ n.sig.length
    · exact List.prefix_of_prefix_length_le a0 ((List.prefix_append _ _).trans p0) hlen
    · exfalso
      have b0 := List.prefix_of_prefix_length_le p0 a0 (by simp at hlen ⊢; omega)
      have b1 := List.prefix_of_prefix_length_le p1 a1 (by simp at hlen ⊢; omega)
      have := snoc_prefix_inj b0 b1
      simp at this

theorem within_left {P : List Bool} {n : ND w V} {l r : NTree w V} (h : WF P (.node n l r)) (b : Bool) :
    den (childOf b (.node n l r)) = (den (.node n l r)).within (n.sig ++ [b]) := by
  funext q
  cases b with
  | false => exact h.den_left q
  | true => exact h.den_right q

section
variable [LawfulKeySize w]

theorem assignN_nil {t : NTree w V} {k : BitVec w} {b : Nat} (v : V) (he : exactMatch t k b = .nil) : assignN t k b v = t := by
  induction t with
  | nil => rfl
  | node n l r ihl ihr =>
    simp only [exactMatch] at he
    unfold assignN
    split
    · rfl
    · split
      · split
        · simp_all
        · rfl
      · split
        · rfl
        · simp_all only [if_false]
          split
          · rename_i hb; simp only [hb, if_true] at he; rw [ihr he]
          · rename_i hb; simp only [hb] at he; rw [ihl (by simpa using he)]

/-- Assigning to the value of the node found is inserting under that node's key. -/
theorem assignN_found [Inhabited V] {P : List Bool} {t : NTree w V} (h : WF P t) {k : BitVec w} {b : Nat} (hb : b ≤ w) (v : V) {n : ND w V} {x y : NTree w V}
    (he : exactMatch t k b = .node n x y) : assignN t k b v = insert t ⟨n.key, b, true, v⟩ := by
  induction t generalizing P with
  | nil => simp [exactMatch] at he
  | node m l r ihl ihr =>
    have hfound := exactMatch_found h hb he
    obtain ⟨hm, _, _, hl, hr⟩ := h
    simp only [exactMatch] at he
    unfold assignN
    by_cases h1 : m.bits > b
    · simp [h1] at he
    · simp only [h1, if_false] at he ⊢
      by_cases h2 : m.bits = b
      · simp only [h2, if_true] at he ⊢
        split at he
        · rename_i hh
          rw [if_pos hh]
          simp only [Bool.and_eq_true] at hh
          cases he
          have h3 : n.bits ≤ ncsb n.key n.bits n.key b := (le_ncsb_iff hm hb hm).2 ⟨Nat.le_refl _, by omega, fun _ _ => rfl⟩
          have h4 : ¬ ncsb n.key n.bits n.key b < n.bits := by omega
          simp only [insert, h4, if_false, if_pos h2.symm]
          obtain ⟨nk, nb, nl, nv⟩ := n
          simp only at h2 hh
          simp [hh.1]
        · cases he
      · simp only [h2, if_false] at he ⊢
        split at he
        · cases he
        · rename_i hh
          rw [if_neg hh]
          have hh : agree m.key k m.bits = true := by simpa using hh
          have hag := (agree_iff hm).1 hh
          have h3 : m.bits ≤ ncsb m.key m.bits n.key b :=
            (le_ncsb_iff hm hb hm).2 ⟨Nat.le_refl _, by omega, fun i hi => by rw [hag i hi, hfound.2.2 i (by omega)]⟩
          have h4 := (ncsb_le (k1 := m.key) (k2 := n.key) hm hb).1
          have h5 : ncsb m.key m.bits n.key b = m.bits := by omega
          have h6 : ¬ b = m.bits := fun q => h2 q.symm
          have h7 : branch n.key m.bits = branch k m.bits := by
            rw [branch_eq (by omega), branch_eq (by omega)]; exact hfound.2.2 _ (by omega)
          simp only [insert, h5, Nat.lt_irrefl, if_false, h6, h7]
          split at he
          · rename_i hb'
            simp [hb', ihr hr he]
          · rename_i hb'
            simp [hb', ihl hl he]

end

variable [LawfulKeySize w] [Inhabited V]

theorem glue_exactMatch {t : NTree w V} (h : Glue t) (k : BitVec w) (b : Nat) : Glue (exactMatch t k b) := by
  induction t with
  | nil => exact h
  | node n l r ihl ihr =>
    obtain ⟨h1, h2, h3⟩ := glue_node.1 h
    unfold exactMatch
    repeat' split
    all_goals first | exact glue_nil | exact h | exact ihr h3 | exact ihl h2

/-- Any chain of calls leaves a well-formed tree with the entries the caller expects. -/
theorem runN_wf (ops : List (NodeOp w V)) : WF [] (runN ops) ∧ Leaves (ops.map NodeOp.abs) (den (runN ops)) ∧ Glue (runN ops) := by
  induction ops with
  | nil => exact ⟨trivial, .start, glue_nil⟩
  | cons op ops ih =>
    obtain ⟨h1, h2, h3⟩ := ih
    cases op with
    | insert k b v =>
      have := insert_spec h1 (c := { key := k, bits := clamp w b, leaf := true, value := v }) (clamp_le b) rfl (List.nil_prefix)
      refine ⟨this.1, ?_, glue_insert h3 rfl⟩
      simp only [runN, Insert]
      rw [this.2]
      exact .insert _ _ h2
    | delete k b =>
      have := del_spec h1 k (clamp_le b)
      refine ⟨this.1, ?_, glue_del h3 k _⟩
      simp only [runN, Delete]
      rw [this.2.1]
      exact .delete _ h2
    | assign k b v =>
      have hx := exactMatch_spec h1 k (clamp_le b)
      simp only [runN]
      cases he : exactMatch (runN ops) k (clamp w b) with
      | nil =>
        rw [he] at hx
        rw [assignN_nil v he]
        exact ⟨h1, .assign_none _ h2 hx, h3⟩
      | node n x y =>
        rw [he] at hx
        obtain ⟨_, e2, e3, _⟩ := hx
        obtain ⟨f1, _, f3⟩ := exactMatch_found h1 (clamp_le b) he
        rw [assignN_found h1 (clamp_le b) v he]
        have := insert_spec h1 (c := { key := n.key, bits := clamp w b, leaf := true, value := v }) (clamp_le b) rfl (List.nil_prefix)
        refine ⟨this.1, ?_, glue_insert h3 rfl⟩
        rw [this.2]
        have e4 : (ND.sig ⟨n.key, clamp w b, true, v⟩ : List Bool) = Verif.sig k (clamp w b) := by rw [← e2, ND.sig, ND.sig, f1]
        rw [e4]
        rw [e2] at e3
        exact .assign _ h2 e3
    | find k b =>
      have hx := exactMatch_spec h1 k (clamp_le b)
      have hg := glue_exactMatch h3 k (clamp w b)
      simp only [runN, FindNode]
      cases he : exactMatch (runN ops) k (clamp w b) with
      | nil =>
        rw [he] at hx
        exact ⟨trivial, .find_none h2 hx, glue_nil⟩
      | node n x y =>
        rw [he] at hx hg
        obtain ⟨_, e2, e3, e4, e5⟩ := hx
        refine ⟨e4.mono List.nil_prefix, ?_, hg⟩
        have e : den (.node n x y) = (den (runN ops)).within (Verif.sig k (clamp w b)) := by
          funext q
          unfold PMap.within
          split
          · rename_i hq; exact e5 q hq
          · rename_i hq; exact e4.den_eq_none hq
        rw [e]
        rw [e2] at e3
        exact .find h2 e3
    | child b =>
      simp only [runN]
      cases hr : runN ops with
      | nil =>
        rw [hr] at h2
        exact ⟨trivial, .child_empty b h2 fun _ => rfl, glue_nil⟩
      | node n l r =>
        rw [hr] at h1 h2 h3
        rw [within_left h1]
        refine ⟨?_, .child b h2 h1.isMeet, ?_⟩
        · cases b
          · exact h1.2.2.2.1.mono List.nil_prefix
          · exact h1.2.2.2.2.mono List.nil_prefix
        · cases b
          · exact (glue_node.1 h3).2.1
          · exact (glue_node.1 h3).2.2

end Verif.Num
