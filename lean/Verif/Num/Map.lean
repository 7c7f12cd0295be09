import Verif.Num.WF

/-! # numtree operations do not look at the values -/

namespace Verif
namespace BTree
/-- Change the payloads. -/
def map {D E : Type} (f : D → E) : BTree D → BTree E
  | .nil => .nil
  | .node d l r => .node (f d) (l.map f) (r.map f)

@[simp] theorem map_nil {D E : Type} (f : D → E) : (nil : BTree D).map f = nil := rfl
@[simp] theorem map_node {D E : Type} (f : D → E) (d : D) (l r : BTree D) : (node d l r).map f = node (f d) (l.map f) (r.map f) := rfl
@[simp] theorem map_mk2 {D E : Type} (f : D → E) (d : D) (b : Bool) (x y : BTree D) : (mk2 d b x y).map f = mk2 (f d) b (x.map f) (y.map f) := by
  cases b <;> rfl
@[simp] theorem isNil_map {D E : Type} (f : D → E) (t : BTree D) : (t.map f).isNil = t.isNil := by cases t <;> rfl
@[simp] theorem height_map {D E : Type} (f : D → E) (t : BTree D) : (t.map f).height = t.height := by
  induction t with
  | nil => rfl
  | node d l r ihl ihr => simp [ihl, ihr]
@[simp] theorem map_map {D E F : Type} (f : D → E) (g : E → F) (t : BTree D) : (t.map f).map g = t.map (g ∘ f) := by
  induction t with
  | nil => rfl
  | node d l r ihl ihr => simp [ihl, ihr]
end BTree

namespace Num
variable {w : Nat} {V W : Type}

/-- Change the value of a node. -/
def ND.mapV (f : V → W) (n : ND w V) : ND w W := ⟨n.key, n.bits, n.leaf, f n.value⟩

/-- Change all values. -/
def mapT (f : V → W) (t : NTree w V) : NTree w W := t.map (ND.mapV f)

@[simp] theorem mapV_key (f : V → W) (n : ND w V) : (n.mapV f).key = n.key := rfl
@[simp] theorem mapV_bits (f : V → W) (n : ND w V) : (n.mapV f).bits = n.bits := rfl
@[simp] theorem mapV_leaf (f : V → W) (n : ND w V) : (n.mapV f).leaf = n.leaf := rfl
@[simp] theorem mapV_value (f : V → W) (n : ND w V) : (n.mapV f).value = f n.value := rfl
@[simp] theorem mapT_nil (f : V → W) : mapT f (.nil : NTree w V) = .nil := rfl
@[simp] theorem mapT_node (f : V → W) (n : ND w V) (l r : NTree w V) : mapT f (.node n l r) = .node (n.mapV f) (mapT f l) (mapT f r) := rfl
@[simp] theorem mapT_mk2 (f : V → W) (n : ND w V) (b : Bool) (x y : NTree w V) : mapT f (.mk2 n b x y) = .mk2 (n.mapV f) b (mapT f x) (mapT f y) :=
  BTree.map_mk2 _ _ _ _ _
@[simp] theorem isNil_mapT (f : V → W) (t : NTree w V) : (mapT f t).isNil = t.isNil := BTree.isNil_map _ _

section
variable [KeySize w]

theorem insert_map [Inhabited V] [Inhabited W] (f : V → W) (hf : f default = default) (t : NTree w V) (c : ND w V) :
    insert (mapT f t) (c.mapV f) = mapT f (insert t c) := by
  induction t with
  | nil => rfl
  | node n l r ihl ihr =>
    simp only [insert, mapT_node, mapV_key, mapV_bits]
    by_cases h1 : ncsb n.key n.bits c.key c.bits < n.bits
    · simp only [h1, if_true]
      by_cases h2 : ncsb n.key n.bits c.key c.bits = c.bits
      · simp only [h2, if_true]; simp
      · simp only [h2, if_false]; simp [ND.mapV, hf]
    · simp only [h1, if_false]
      by_cases h2 : c.bits = n.bits
      · simp only [h2, if_true]; rfl
      · simp only [h2, if_false]
        by_cases h3 : branch c.key (ncsb n.key n.bits c.key c.bits) = true
        · simp only [h3, if_true, ihr, mapT_node]
        · simp [h3, ihl]

theorem Insert_map [Inhabited V] [Inhabited W] (f : V → W) (hf : f default = default) (t : NTree w V) (k : BitVec w) (bits : Int) (v : V) :
    Insert (mapT f t) k bits (f v) = mapT f (Insert t k bits v) := insert_map f hf t ⟨k, clamp w bits, true, v⟩

theorem exactMatch_map (f : V → W) (t : NTree w V) (k : BitVec w) (b : Nat) : exactMatch (mapT f t) k b = mapT f (exactMatch t k b) := by
  induction t with
  | nil => rfl
  | node n l r ihl ihr =>
    simp only [exactMatch, mapT_node, mapV_key, mapV_bits, mapV_leaf, ihl, ihr]
    repeat' split
    all_goals simp_all

theorem FindNode_map (f : V → W) (t : NTree w V) (k : BitVec w) (b : Int) : FindNode (mapT f t) k b = mapT f (FindNode t k b) := exactMatch_map f t k _

theorem ExactMatch_map (f : V → W) (t : NTree w V) (k : BitVec w) (b : Int) : ExactMatch (mapT f t) k b = (ExactMatch t k b).map f := by
  unfold ExactMatch
  rw [FindNode_map]
  cases FindNode t k b <;> rfl

theorem matchN_map (f : V → W) (t : NTree w V) (k : BitVec w) (b : Nat) : matchN (mapT f t) k b = (matchN t k b).map (ND.mapV f) := by
  induction t with
  | nil => rfl
  | node n l r ihl ihr =>
    obtain ⟨key, bits, leaf, value⟩ := n
    simp only [matchN, mapT_node, ND.mapV, ihl, ihr]
    split
    · rfl
    · split
      · split <;> simp_all [ND.mapV]
      · split
        · simp_all
        · cases branch k bits
          · cases matchN l k b <;> cases leaf <;> simp_all [ND.mapV]
          · cases matchN r k b <;> cases leaf <;> simp_all [ND.mapV]

theorem Match_map (f : V → W) (t : NTree w V) (k : BitVec w) (b : Int) : Match (mapT f t) k b = (Match t k b).map f := by
  unfold Match
  rw [matchN_map]
  cases matchN t k (clamp w b) <;> rfl

theorem del_map (f : V → W) (t : NTree w V) (k : BitVec w) (b : Nat) : del (mapT f t) k b = (mapT f (del t k b).1, (del t k b).2) := by
  induction t with
  | nil => rfl
  | node n l r ihl ihr =>
    simp only [del, mapT_node, mapV_key, mapV_bits, mapV_leaf, ihl, ihr]
    split
    · split <;> simp_all
    · split
      · simp_all
      · split
        · cases e : del r k b with
          | mk x y =>
            cases y
            · simp_all
            · simp only [isNil_mapT]; split <;> simp_all
        · cases e : del l k b with
          | mk x y =>
            cases y
            · simp_all
            · simp only [isNil_mapT]; split <;> simp_all

theorem Delete_map (f : V → W) (t : NTree w V) (k : BitVec w) (b : Int) : Delete (mapT f t) k b = (mapT f (Delete t k b).1, (Delete t k b).2) := del_map f t k _
end

theorem enumerate_map (f : V → W) (t : NTree w V) : enumerate (mapT f t) = (enumerate t).map (ND.mapV f) := by
  induction t with
  | nil => rfl
  | node n l r ihl ihr =>
    obtain ⟨key, bits, leaf, value⟩ := n
    simp only [enumerate, mapT_node, ND.mapV, ihl, ihr]
    cases leaf <;> simp [ND.mapV]

/-! ## Sums over the nodes -/

/-- Sum of a measure of the values of all nodes. -/
def sumV (g : V → Nat) : NTree w V → Nat
  | .nil => 0
  | .node n l r => g n.value + sumV g l + sumV g r

@[simp] theorem sumV_nil (g : V → Nat) : sumV g (.nil : NTree w V) = 0 := rfl
@[simp] theorem sumV_node (g : V → Nat) (n : ND w V) (l r : NTree w V) : sumV g (.node n l r) = g n.value + sumV g l + sumV g r := rfl
@[simp] theorem sumV_mk2 (g : V → Nat) (n : ND w V) (b : Bool) (x y : NTree w V) : sumV g (.mk2 n b x y) = g n.value + sumV g x + sumV g y := by
  cases b <;> simp; omega

theorem sumV_del [KeySize w] (g : V → Nat) (t : NTree w V) (k : BitVec w) (b : Nat) : sumV g (del t k b).1 ≤ sumV g t := by
  induction t with
  | nil => simp [del]
  | node n l r ihl ihr =>
    simp only [del]
    split
    · split <;> simp
    · split
      · simp
      · split
        · cases e : del r k b with
          | mk x y =>
            rw [e] at ihr
            cases y
            · simp
            · simp only; split <;> simp at * <;> omega
        · cases e : del l k b with
          | mk x y =>
            rw [e] at ihl
            cases y
            · simp
            · simp only; split <;> simp at * <;> omega

/-- The measure of the value stored for exactly this prefix. -/
def oldV [KeySize w] (g : V → Nat) (t : NTree w V) (k : BitVec w) (b : Nat) : Nat :=
  match exactMatch t k b with
  | .nil => 0
  | .node n _ _ => g n.value

theorem sumV_insert [LawfulKeySize w] [Inhabited V] (g : V → Nat) (hg : g default = 0) {P : List Bool} {t : NTree w V} (h : WF P t) {c : ND w V} (hc : c.bits ≤ w) :
    sumV g (insert t c) + oldV g t c.key c.bits ≤ sumV g t + g c.value := by
  induction t generalizing P with
  | nil => simp [insert, oldV, exactMatch]
  | node n l r ihl ihr =>
    obtain ⟨hn, _, _, hl, hr⟩ := h
    have hle := ncsb_le (k1 := n.key) (k2 := c.key) hn hc
    have hag := ncsb_agree (k1 := n.key) (k2 := c.key) hn hc
    simp only [insert]
    by_cases h1 : ncsb n.key n.bits c.key c.bits < n.bits
    · have hold : oldV g (.node n l r) c.key c.bits = 0 := by
        unfold oldV
        simp only [exactMatch]
        by_cases h2 : n.bits > c.bits
        · simp [h2]
        · have h3 : agree n.key c.key n.bits = false := by
            cases e : agree n.key c.key n.bits with
            | false => rfl
            | true =>
              rw [agree_iff hn] at e
              have := (le_ncsb_iff (k1 := n.key) (k2 := c.key) hn hc hn).2 ⟨Nat.le_refl _, by omega, e⟩
              omega
          simp [h2, h3]
      rw [hold]
      simp only [h1, if_true]
      split <;> simp [hg] <;> omega
    · simp only [h1, if_false]
      have hag' : agree n.key c.key n.bits = true := by
        rw [agree_iff hn]
        intro i hi
        exact hag i (by omega)
      by_cases h2 : c.bits = n.bits
      · simp only [h2, if_true]
        unfold oldV
        simp only [exactMatch, hag']
        cases hlf : n.leaf <;> simp <;> omega
      · simp only [h2, if_false]
        have e : ncsb n.key n.bits c.key c.bits = n.bits := by omega
        rw [e]
        have hold : oldV g (.node n l r) c.key c.bits = if branch c.key n.bits then oldV g r c.key c.bits else oldV g l c.key c.bits := by
          have q1 : ¬ n.bits > c.bits := by omega
          have q2 : ¬ n.bits = c.bits := fun q => h2 q.symm
          unfold oldV
          simp only [exactMatch, q1, q2, if_false, hag']
          cases branch c.key n.bits <;> simp
        rw [hold]
        have a := ihl hl
        have b := ihr hr
        split <;> simp <;> omega

theorem wf_map (f : V → W) (P : List Bool) (t : NTree w V) : WF P (mapT f t) ↔ WF P t := by
  induction t generalizing P with
  | nil => exact Iff.rfl
  | node n l r ihl ihr =>
    have e : ∀ x : NTree w V, mapT f x = .nil ↔ x = .nil := fun x => by cases x <;> simp
    simp only [WF, mapT_node, ihl, ihr, mapV_bits, mapV_leaf, ne_eq, e]
    exact Iff.rfl

/-! ## Values of the nodes -/

/-- Values of all nodes. -/
def vals : NTree w V → List V
  | .nil => []
  | .node n l r => n.value :: (vals l ++ vals r)

theorem vals_mk2 (n : ND w V) (b : Bool) (x y : NTree w V) (v : V) : v ∈ vals (.mk2 n b x y) ↔ v = n.value ∨ v ∈ vals x ∨ v ∈ vals y := by
  cases b <;> simp [vals]; grind

theorem sumV_vals (g : V → Nat) (t : NTree w V) : sumV g t = ((vals t).map g).sum := by
  induction t with
  | nil => rfl
  | node n l r ihl ihr => simp [vals, ihl, ihr]; omega

theorem vals_insert [KeySize w] [Inhabited V] (t : NTree w V) (c : ND w V) : ∀ v ∈ vals (insert t c), v = c.value ∨ v = default ∨ v ∈ vals t := by
  induction t with
  | nil => simp [insert, vals]
  | node n l r ihl ihr =>
    intro v
    simp only [insert]
    split
    · split
      · rw [vals_mk2]; simp [vals]; grind
      · rw [vals_mk2]; simp [vals]; grind
    · split
      · simp [vals]; grind
      · split
        · have := ihr v
          simp [vals] at *; grind
        · have := ihl v
          simp [vals] at *; grind

theorem vals_del [KeySize w] (t : NTree w V) (k : BitVec w) (b : Nat) : ∀ v ∈ vals (del t k b).1, v ∈ vals t := by
  induction t with
  | nil => simp [del]
  | node n l r ihl ihr =>
    intro v
    simp only [del]
    split
    · split <;> simp [vals]
    · split
      · simp
      · split
        · have := ihr v
          cases e : del r k b with
          | mk x y =>
            rw [e] at this
            cases y
            · simp
            · simp only; split <;> simp [vals] at * <;> grind
        · have := ihl v
          cases e : del l k b with
          | mk x y =>
            rw [e] at this
            cases y
            · simp
            · simp only; split <;> simp [vals] at * <;> grind

theorem vals_exactMatch [KeySize w] (t : NTree w V) (k : BitVec w) (b : Nat) : ∀ v ∈ vals (exactMatch t k b), v ∈ vals t := by
  induction t with
  | nil => simp [exactMatch]
  | node n l r ihl ihr =>
    intro v
    have h1 := ihl v
    have h2 := ihr v
    simp only [exactMatch]
    repeat' split
    all_goals simp [vals] at *
    all_goals grind

theorem vals_ExactMatch [KeySize w] {t : NTree w V} {k : BitVec w} {b : Int} {v : V} (h : ExactMatch t k b = some v) : v ∈ vals t := by
  unfold ExactMatch at h
  split at h
  · cases h
  · rename_i n l r e
    cases h
    exact vals_exactMatch t k (clamp w b) _ (by unfold FindNode at e; rw [e]; simp [vals])

theorem vals_Match [KeySize w] {t : NTree w V} {k : BitVec w} {b : Nat} {n : ND w V} (h : matchN t k b = some n) : n.value ∈ vals t := by
  induction t with
  | nil => simp [matchN] at h
  | node m l r ihl ihr =>
    simp only [matchN] at h
    split at h
    · cases h
    · split at h
      · split at h
        · cases h; simp [vals]
        · cases h
      · split at h
        · cases h
        · cases hb : branch k m.bits <;> simp only [hb] at h
          · cases e : matchN l k b with
            | none => simp [e] at h; simp [vals, h.2]
            | some x => simp [e] at h; subst h; simp [vals, ihl e]
          · cases e : matchN r k b with
            | none => simp [e] at h; simp [vals, h.2]
            | some x => simp [e] at h; subst h; simp [vals, ihr e]

/-- Inserting where an entry is: its value is replaced, the others stay. -/
theorem exact_split [LawfulKeySize w] [Inhabited V] {P : List Bool} {t : NTree w V} (h : WF P t) {c : ND w V} (hc : c.bits ≤ w) {n : ND w V} {x y : NTree w V}
    (he : exactMatch t c.key c.bits = .node n x y) : ∃ l1 l2, vals t = l1 ++ n.value :: l2 ∧ vals (insert t c) = l1 ++ c.value :: l2 := by
  induction t generalizing P with
  | nil => simp [exactMatch] at he
  | node m l r ihl ihr =>
    obtain ⟨hm, _, _, hl, hr⟩ := h
    simp only [exactMatch] at he
    by_cases h1 : m.bits > c.bits
    · simp [h1] at he
    · simp only [h1, if_false] at he
      by_cases h2 : m.bits = c.bits
      · simp only [h2, if_true] at he
        split at he
        · rename_i hh
          simp only [Bool.and_eq_true] at hh
          cases he
          have h3 : n.bits ≤ ncsb n.key n.bits c.key c.bits :=
            (le_ncsb_iff hm hc hm).2 ⟨Nat.le_refl _, by omega, by rw [h2]; exact (agree_iff hc).1 hh.2⟩
          refine ⟨[], vals x ++ vals y, rfl, ?_⟩
          have h4 : ¬ ncsb n.key n.bits c.key c.bits < n.bits := by omega
          simp only [insert, h4, if_false, if_pos h2.symm]; rfl
        · cases he
      · simp only [h2, if_false] at he
        split at he
        · cases he
        · rename_i hh
          have hh : agree m.key c.key m.bits = true := by simpa using hh
          have h3 : m.bits ≤ ncsb m.key m.bits c.key c.bits :=
            (le_ncsb_iff hm hc hm).2 ⟨Nat.le_refl _, by omega, (agree_iff hm).1 hh⟩
          have h4 := (ncsb_le (k1 := m.key) (k2 := c.key) hm hc).1
          have h5 : ncsb m.key m.bits c.key c.bits = m.bits := by omega
          have h6 : ¬ c.bits = m.bits := fun q => h2 q.symm
          simp only [insert, h5, Nat.lt_irrefl, if_false, h6]
          split at he
          · rename_i hb
            obtain ⟨l1, l2, e1, e2⟩ := ihr hr he
            refine ⟨m.value :: (vals l ++ l1), l2, by simp [vals, e1], by simp [hb, vals, e2]⟩
          · rename_i hb
            obtain ⟨l1, l2, e1, e2⟩ := ihl hl he
            refine ⟨m.value :: l1, l2 ++ vals r, by simp [vals, e1], by simp [hb, vals, e2]⟩

/-- Inserting an entry of full width with the value it has changes nothing. -/
theorem insert_same [LawfulKeySize w] [Inhabited V] {P : List Bool} {t : NTree w V} (h : WF P t) {k : BitVec w} {n : ND w V} {x y : NTree w V}
    (he : exactMatch t k w = .node n x y) : insert t ⟨k, w, true, n.value⟩ = t := by
  induction t generalizing P with
  | nil => simp [exactMatch] at he
  | node m l r ihl ihr =>
    obtain ⟨hm, _, _, hl, hr⟩ := h
    simp only [exactMatch] at he
    by_cases h1 : m.bits > w
    · omega
    · simp only [h1, if_false] at he
      by_cases h2 : m.bits = w
      · simp only [h2, if_true] at he
        split at he
        · rename_i hh
          simp only [Bool.and_eq_true] at hh
          cases he
          have hag := (agree_iff (Nat.le_refl w)).1 hh.2
          have hk : n.key = k := by
            apply BitVec.eq_of_getMsbD_eq
            intro i hi
            exact hag i hi
          have h3 : n.bits ≤ ncsb n.key n.bits k w :=
            (le_ncsb_iff hm (Nat.le_refl _) hm).2 ⟨Nat.le_refl _, by omega, by rw [h2]; exact hag⟩
          have h4 : ¬ ncsb n.key n.bits k w < n.bits := by omega
          obtain ⟨nk, nb, nl, nv⟩ := n
          simp only at hk h2 hh h4
          simp only [insert, h4, if_false]
          simp [h2, hk, hh.1]
        · cases he
      · simp only [h2, if_false] at he
        split at he
        · cases he
        · rename_i hh
          have hh : agree m.key k m.bits = true := by simpa using hh
          have h3 : m.bits ≤ ncsb m.key m.bits k w :=
            (le_ncsb_iff hm (Nat.le_refl _) hm).2 ⟨Nat.le_refl _, by omega, (agree_iff hm).1 hh⟩
          have h4 := (ncsb_le (k1 := m.key) (k2 := k) hm (Nat.le_refl w)).1
          have h5 : ncsb m.key m.bits k w = m.bits := by omega
          have h6 : ¬ w = m.bits := fun q => h2 q.symm
          simp only [insert, h5, Nat.lt_irrefl, if_false, h6]
          split at he
          · rename_i hb
            simp [hb, ihr hr he]
          · rename_i hb
            simp [hb, ihl hl he]

end Num
end Verif
