import Verif.Num.Shape

/-! # Histories of numtree operations -/

namespace Verif.Num
variable {w : Nat} {V : Type}

/-- One copy-on-write call. -/
inductive NumOp (w : Nat) (V : Type) where
  | insert (key : BitVec w) (bits : Int) (value : V)
  | delete (key : BitVec w) (bits : Int)

/-- What the caller means by the call. -/
def NumOp.abs : NumOp w V → POp V
  | .insert k b v => .insert (Verif.sig k (clampSpec w b)) v
  | .delete k b => .delete (Verif.sig k (clampSpec w b))

/-- Run a history (newest call first) from the empty tree (a nil `*Node32`/`*Node64`). -/
def run [KeySize w] [Inhabited V] : List (NumOp w V) → NTree w V
  | [] => .nil
  | .insert k b v :: ops => Insert (run ops) k b v
  | .delete k b :: ops => (Delete (run ops) k b).1

theorem clamp_eq (b : Int) : clamp w b = clampSpec w b := rfl

theorem clamp_le (b : Int) : clamp w b ≤ w := by
  unfold clamp; split
  · omega
  · split <;> omega

section
variable [Inhabited V]

/-- Glue nodes carry the nil value. -/
def Glue (t : NTree w V) : Prop := ∀ n ∈ t.toPre, n.leaf = false → n.value = default

theorem glue_nil : Glue (.nil : NTree w V) := by intro n hn; simp [BTree.toPre] at hn

theorem glue_node {n : ND w V} {l r : NTree w V} :
    Glue (.node n l r) ↔ (n.leaf = false → n.value = default) ∧ Glue l ∧ Glue r := by
  unfold Glue
  simp only [BTree.toPre, List.mem_cons, List.mem_append]
  constructor
  · intro h
    exact ⟨h n (.inl rfl), fun m hm => h m (.inr (.inl hm)), fun m hm => h m (.inr (.inr hm))⟩
  · rintro ⟨h1, h2, h3⟩ m (rfl | hm | hm)
    · exact h1
    · exact h2 m hm
    · exact h3 m hm

theorem glue_mk2 {n : ND w V} {b : Bool} {x y : NTree w V} (h1 : n.leaf = false → n.value = default)
    (h2 : Glue x) (h3 : Glue y) : Glue (BTree.mk2 n b x y) := by
  cases b
  · exact glue_node.2 ⟨h1, h2, h3⟩
  · exact glue_node.2 ⟨h1, h3, h2⟩

theorem glue_insert [KeySize w] {t : NTree w V} (h : Glue t) {c : ND w V} (hc : c.leaf = true) :
    Glue (insert t c) := by
  have hc' : c.leaf = false → c.value = default := by simp [hc]
  induction t with
  | nil => exact glue_node.2 ⟨hc', glue_nil, glue_nil⟩
  | node n l r ihl ihr =>
    obtain ⟨h1, h2, h3⟩ := glue_node.1 h
    unfold insert
    simp only
    split
    · split
      · exact glue_mk2 hc' h glue_nil
      · exact glue_mk2 (fun _ => rfl) h (glue_node.2 ⟨hc', glue_nil, glue_nil⟩)
    · split
      · exact glue_node.2 ⟨hc', h2, h3⟩
      · split
        · exact glue_node.2 ⟨h1, h2, ihr h3⟩
        · exact glue_node.2 ⟨h1, ihl h2, h3⟩

theorem glue_del [KeySize w] {t : NTree w V} (h : Glue t) (k : BitVec w) (b : Nat) : Glue (del t k b).1 := by
  induction t with
  | nil => exact glue_nil
  | node n l r ihl ihr =>
    obtain ⟨h1, h2, h3⟩ := glue_node.1 h
    unfold del
    split
    · split
      · exact glue_nil
      · exact h
    · split
      · exact h
      · split
        · have := ihr h3
          split
          · exact h
          · rename_i c hc
            rw [hc] at this
            split
            · exact h2
            · exact glue_node.2 ⟨h1, h2, this⟩
        · have := ihl h2
          split
          · exact h
          · rename_i c hc
            rw [hc] at this
            split
            · exact h3
            · exact glue_node.2 ⟨h1, this, h3⟩

variable [LawfulKeySize w]

theorem run_wf (ops : List (NumOp w V)) : WF [] (run ops) ∧ den (run ops) = lastWrite (ops.map NumOp.abs) ∧ Glue (run ops) := by
  induction ops with
  | nil => exact ⟨trivial, rfl, glue_nil⟩
  | cons op ops ih =>
    obtain ⟨h1, h2, h3⟩ := ih
    cases op with
    | insert k b v =>
      have := insert_spec h1 (c := { key := k, bits := clamp w b, leaf := true, value := v }) (clamp_le b) rfl (List.nil_prefix)
      refine ⟨this.1, ?_, glue_insert h3 rfl⟩
      simp only [run, Insert]
      rw [this.2, h2]
      funext q
      simp only [PMap.insert, List.map_cons, NumOp.abs, lastWrite, ND.sig, clamp_eq]
      by_cases hq : q = Verif.sig k (clampSpec w b) <;> simp [hq]
    | delete k b =>
      have := del_spec h1 k (clamp_le b)
      refine ⟨this.1, ?_, glue_del h3 k _⟩
      simp only [run, Delete]
      rw [this.2.1, h2]
      funext q
      simp only [PMap.delete, List.map_cons, NumOp.abs, lastWrite, clamp_eq, List.isPrefixOf_iff_prefix]

end

/-- Reachable by a history of calls from the empty tree. -/
def Reachable [KeySize w] [Inhabited V] (t : NTree w V) : Prop := ∃ ops, t = run ops

theorem exactMatch_eq_den [LawfulKeySize w] {P : List Bool} {t : NTree w V} (h : WF P t) (k : BitVec w) (b : Int) :
    ExactMatch t k b = den t (Verif.sig k (clampSpec w b)) := by
  unfold ExactMatch FindNode
  have := exactMatch_spec h k (clamp_le b)
  rw [clamp_eq] at this ⊢
  cases hx : exactMatch t k (clampSpec w b) with
  | nil => rw [hx] at this; exact this.symm
  | node n l r =>
    rw [hx] at this
    obtain ⟨_, h2, h3, _⟩ := this
    rw [h2] at h3
    exact h3.symm

theorem match_longest [LawfulKeySize w] {P : List Bool} {t : NTree w V} (h : WF P t) (k : BitVec w) (b : Int) :
    (den t).IsLongestMatch (Verif.sig k (clampSpec w b)) (Match t k b) := by
  unfold Match
  have := matchN_spec h k (clamp_le b)
  rw [clamp_eq] at this ⊢
  cases hx : matchN t k (clampSpec w b) with
  | none => rw [hx] at this; exact .inr ⟨rfl, this⟩
  | some n =>
    rw [hx] at this
    obtain ⟨h1, h2, h3⟩ := this
    exact .inl ⟨n.sig, n.value, rfl, h1, h2, h3⟩

/-- Every bit string of at most `w` bits is the significant part of some key. -/
theorem exists_sig (p : List Bool) (hp : p.length ≤ w) : ∃ k : BitVec w, Verif.sig k p.length = p := by
  have hl : (p ++ List.replicate (w - p.length) false).length = w := by simp; omega
  refine ⟨(BitVec.ofBoolListBE (p ++ List.replicate (w - p.length) false)).cast hl, ?_⟩
  apply List.ext_getElem
  · simp
  · intro i h1 h2
    rw [getElem_sig, BitVec.getMsbD_cast, BitVec.getMsbD_ofBoolListBE]
    simp [List.getD, List.getElem?_append_left h2, List.getElem?_eq_getElem h2]

theorem isLongestMatch_unique {m : PMap V} {q : List Bool} {r r' : Option V} (h : m.IsLongestMatch q r)
    (h' : m.IsLongestMatch q r') : r = r' := by
  rcases h with ⟨p, v, rfl, hp, hv, hm⟩ | ⟨rfl, hn⟩ <;> rcases h' with ⟨p', v', rfl, hp', hv', hm'⟩ | ⟨rfl, hn'⟩
  · have h1 := hm p' v' hp' hv'
    have h2 := hm' p v hp hv
    have : p = p' := (List.prefix_of_prefix_length_le hp hp' h2).eq_of_length_le h1
    subst this; rw [hv] at hv'; exact hv'
  · rw [hn' p hp] at hv; cases hv
  · rw [hn p' hp'] at hv'; cases hv'
  · rfl

end Verif.Num
