import Verif.Num.Bits

/-! # Well-formedness of numtrees and the abstraction to prefix maps -/

namespace Verif.Num
variable {w : Nat} {V : Type}

/-- Significant bits of a node. -/
abbrev ND.sig (n : ND w V) : List Bool := Verif.sig n.key n.bits

/-- Stored entries in enumeration order. -/
def entries (t : NTree w V) : List (List Bool × V) :=
  (enumerate t).map fun n => (n.sig, n.value)

/-- The prefix map a tree stands for. -/
def den (t : NTree w V) : PMap V := fun p => (entries t).lookup p

/-- Structural invariant: the tree only holds prefixes extending `P`, children extend their parent by the branch bit,
and a node without data has two children. -/
def WF : List Bool → NTree w V → Prop
  | _, .nil => True
  | P, .node n l r =>
    n.bits ≤ w ∧ P <+: n.sig ∧ (n.leaf = false → l ≠ .nil ∧ r ≠ .nil) ∧
    WF (n.sig ++ [false]) l ∧ WF (n.sig ++ [true]) r

theorem WF.mono {P Q : List Bool} {t : NTree w V} (h : WF Q t) (hp : P <+: Q) : WF P t := by
  cases t with
  | nil => trivial
  | node n l r => exact ⟨h.1, hp.trans h.2.1, h.2.2⟩

@[simp] theorem entries_nil : entries (.nil : NTree w V) = [] := rfl

theorem entries_node (n : ND w V) (l r : NTree w V) :
    entries (.node n l r) = (if n.leaf then [(n.sig, n.value)] else []) ++ entries l ++ entries r := by
  unfold entries
  simp only [enumerate, List.map_append]
  split <;> simp

@[simp] theorem den_nil (q : List Bool) : den (.nil : NTree w V) q = none := rfl

theorem den_node (n : ND w V) (l r : NTree w V) (q : List Bool) :
    den (.node n l r) q =
      ((if n.leaf = true ∧ q = n.sig then some n.value else none).or (den l q)).or (den r q) := by
  unfold den
  rw [entries_node, List.lookup_append, List.lookup_append]
  congr 2
  by_cases h : n.leaf = true
  · by_cases h2 : q = n.sig
    · simp [h, h2]
    · have : (q == n.sig) = false := by simpa using h2
      simp [h, h2, List.lookup, this]
  · simp [h]

theorem WF.den_prefix {P : List Bool} {t : NTree w V} (h : WF P t) {q : List Bool} {v : V}
    (hq : den t q = some v) : P <+: q := by
  induction t generalizing P with
  | nil => simp at hq
  | node n l r ihl ihr =>
    obtain ⟨_, hp, _, hl, hr⟩ := h
    rw [den_node] at hq
    simp only [Option.or_eq_some_iff] at hq
    rcases hq with (hq | ⟨_, hq⟩) | ⟨_, hq⟩
    · split at hq
      · rename_i hc; rw [hc.2]; exact hp
      · simp at hq
    · exact hp.trans ((List.prefix_append _ _).trans (ihl hl hq))
    · exact hp.trans ((List.prefix_append _ _).trans (ihr hr hq))

/-- Entries of a node extend the node's own prefix. -/
theorem WF.den_node_prefix {P : List Bool} {n : ND w V} {l r : NTree w V} (h : WF P (.node n l r)) {q : List Bool} {v : V}
    (hq : den (.node n l r) q = some v) : n.sig <+: q := by
  have : WF n.sig (.node n l r) := ⟨h.1, List.prefix_refl _, h.2.2⟩
  exact this.den_prefix hq

theorem WF.den_eq_none {P : List Bool} {t : NTree w V} (h : WF P t) {q : List Bool} (hq : ¬ P <+: q) :
    den t q = none := by
  cases hd : den t q with
  | none => rfl
  | some v => exact absurd (h.den_prefix hd) hq

/-- A non-empty well-formed tree stores something. -/
theorem WF.exists_den {P : List Bool} {t : NTree w V} (h : WF P t) (hne : t ≠ .nil) :
    ∃ q v, den t q = some v := by
  induction t generalizing P with
  | nil => exact absurd rfl hne
  | node n l r ihl ihr =>
    obtain ⟨hb, hp, hc, hl, hr⟩ := h
    by_cases hleaf : n.leaf = true
    · exact ⟨n.sig, n.value, by rw [den_node]; simp [hleaf]⟩
    · obtain ⟨hln, _⟩ := hc (by simpa using hleaf)
      obtain ⟨q, v, hq⟩ := ihl hl hln
      exact ⟨q, v, by rw [den_node]; simp [hleaf, hq]⟩

theorem prefix_snoc_ne {p q : List Bool} {b : Bool} (h1 : p ++ [b] <+: q) : q ≠ p := by
  rintro rfl
  have := h1.length_le
  simp at this
  omega

theorem snoc_prefix_inj {p q : List Bool} {b b' : Bool} (h1 : p ++ [b] <+: q) (h2 : p ++ [b'] <+: q) : b = b' := by
  have := List.prefix_of_prefix_length_le h1 h2 (by simp)
  have := List.IsPrefix.eq_of_length this (by simp)
  simpa using this

theorem WF.children_none_self {P : List Bool} {n : ND w V} {l r : NTree w V} (h : WF P (.node n l r)) :
    den l n.sig = none ∧ den r n.sig = none :=
  ⟨h.2.2.2.1.den_eq_none (fun hc => prefix_snoc_ne hc rfl), h.2.2.2.2.den_eq_none (fun hc => prefix_snoc_ne hc rfl)⟩

theorem sig_snoc_branch {k : BitVec w} {b bits : Nat} (hb : b < bits) (hw : bits ≤ w) :
    Verif.sig k b ++ [branch k b] <+: Verif.sig k bits := by
  rw [branch_eq (by omega), ← sig_succ]
  exact sig_prefix_self _ (by omega)

section
variable [LawfulKeySize w]

/-! ## Insert -/
variable [Inhabited V]

omit [LawfulKeySize w] [Inhabited V] in
theorem den_mk2 (n : ND w V) (b : Bool) (x y : NTree w V) (q : List Bool)
    (hd : den x q = none ∨ den y q = none) :
    den (BTree.mk2 n b x y) q =
      ((if n.leaf = true ∧ q = n.sig then some n.value else none).or (den x q)).or (den y q) := by
  cases b
  · simp [den_node]
  · simp only [BTree.mk2_true, den_node]
    rcases hd with hd | hd <;> simp [hd]

theorem prefix_sig_of_prefix {P : List Bool} {k1 k2 : BitVec w} {b1 b2 : Nat} (h1 : b1 ≤ w) (h2 : b2 ≤ w)
    (hp1 : P <+: Verif.sig k1 b1) (hp2 : P <+: Verif.sig k2 b2) : P <+: Verif.sig k2 (ncsb k1 b1 k2 b2) := by
  have e1 : P = Verif.sig k1 P.length := by
    rw [← sig_take k1 (by simpa using hp1.length_le)]
    exact List.prefix_iff_eq_take.1 hp1
  have e2 : P = Verif.sig k2 P.length := by
    rw [← sig_take k2 (by simpa using hp2.length_le)]
    exact List.prefix_iff_eq_take.1 hp2
  have l1 : P.length ≤ b1 := by simpa using hp1.length_le
  have l2 : P.length ≤ b2 := by simpa using hp2.length_le
  have : P.length ≤ ncsb k1 b1 k2 b2 := by
    rw [le_ncsb_iff h1 h2 (by omega)]
    refine ⟨l1, l2, ?_⟩
    exact ((sig_eq_iff _ _ _ _).1 (e1.symm.trans e2)).2
  rw [e2]
  exact sig_prefix_self _ (by simpa using this)

theorem insert_ne_nil (t : NTree w V) (c : ND w V) : insert t c ≠ .nil := by
  cases t with
  | nil => simp [insert]
  | node n l r =>
    simp only [insert]
    repeat' split
    all_goals first
      | (cases branch n.key (ncsb n.key n.bits c.key c.bits) <;> simp; done)
      | simp

theorem insert_spec {P : List Bool} {t : NTree w V} (h : WF P t) {c : ND w V} (hc : c.bits ≤ w)
    (hleaf : c.leaf = true) (hp : P <+: c.sig) :
    WF P (insert t c) ∧ den (insert t c) = (den t).insert c.sig c.value := by
  induction t generalizing P with
  | nil =>
    refine ⟨⟨hc, hp, by simp [hleaf], trivial, trivial⟩, ?_⟩
    funext q
    simp [insert, den_node, PMap.insert, hleaf]
  | node n l r ihl ihr =>
    have hwf := h
    obtain ⟨hb, hpn, hch, hl, hr⟩ := h
    have hle := ncsb_le (k1 := n.key) (k2 := c.key) hb hc
    have hag := ncsb_agree (k1 := n.key) (k2 := c.key) hb hc
    have hPb : P <+: Verif.sig c.key (ncsb n.key n.bits c.key c.bits) := prefix_sig_of_prefix hb hc hpn hp
    unfold insert
    simp only []
    generalize hbb : ncsb n.key n.bits c.key c.bits = b at *
    have hsig : Verif.sig n.key b = Verif.sig c.key b := by
      rw [sig_eq_iff]; exact ⟨rfl, hag⟩
    by_cases h1 : b < n.bits
    · simp only [h1, if_true]
      have hnb : Verif.sig n.key b ++ [branch n.key b] <+: n.sig := sig_snoc_branch h1 hb
      by_cases h2 : b = c.bits
      · -- candidate contains the current node
        simp only [h2, if_true]
        have hcs : c.sig = Verif.sig n.key b := by
          rw [hsig, h2]
        rw [h2] at hnb
        constructor
        · have hx : WF (c.sig ++ [branch n.key c.bits]) (.node n l r) := by
            refine ⟨hb, ?_, hch, hl, hr⟩
            rw [hcs, h2]; exact hnb
          cases hbr : branch n.key c.bits
          · rw [hbr] at hx
            exact ⟨hc, hp, by simp [hleaf], hx, trivial⟩
          · rw [hbr] at hx
            exact ⟨hc, hp, by simp [hleaf], trivial, hx⟩
        · funext q
          rw [den_mk2 _ _ _ _ _ (Or.inr rfl)]
          simp only [hleaf, true_and, den_nil, Option.or_none, PMap.insert]
          by_cases hq : q = c.sig <;> simp [hq]
      · -- new internal node
        simp only [h2, if_false]
        have hcb : b < c.bits := by omega
        have hdiff : n.key.getMsbD b ≠ c.key.getMsbD b := by
          have := ncsb_diff (k1 := n.key) (k2 := c.key) hb hc (by omega) (by omega)
          rwa [hbb] at this
        have hcbr : branch c.key b = !branch n.key b := by
          rw [branch_eq (by omega), branch_eq (by omega)]
          cases hx : n.key.getMsbD b <;> cases hy : c.key.getMsbD b <;> simp_all
        have hcc : Verif.sig c.key b ++ [branch c.key b] <+: c.sig := sig_snoc_branch hcb hc
        have hms : Verif.sig (c.key &&& mask b) b = Verif.sig c.key b := sig_and_mask (by omega) (by omega)
        have hx : WF (Verif.sig c.key b ++ [branch n.key b]) (.node n l r) := by
          refine ⟨hb, ?_, hch, hl, hr⟩
          rw [← hsig]; exact hnb
        have hy : WF (Verif.sig c.key b ++ [!branch n.key b]) (.node c .nil .nil : NTree w V) := by
          refine ⟨hc, ?_, by simp [hleaf], trivial, trivial⟩
          rw [← hcbr]; exact hcc
        constructor
        · cases hbr : branch n.key b
          · rw [hbr] at hx hy
            refine ⟨?_, ?_, by simp, ?_, ?_⟩
            · simp; omega
            · simpa [ND.sig, hms] using hPb
            · simpa [ND.sig, hms] using hx
            · simpa [ND.sig, hms] using hy
          · rw [hbr] at hx hy
            refine ⟨?_, ?_, by simp, ?_, ?_⟩
            · simp; omega
            · simpa [ND.sig, hms] using hPb
            · simpa [ND.sig, hms] using hy
            · simpa [ND.sig, hms] using hx
        · funext q
          have hold : den (.node n l r) c.sig = none := by
            apply hx.den_eq_none
            intro hpre
            have hcc' := hcc
            rw [hcbr] at hcc'
            have := snoc_prefix_inj hpre hcc'
            simp at this
          have hcd : den (.node c .nil .nil : NTree w V) q = if q = c.sig then some c.value else none := by
            rw [den_node]; simp [hleaf]
          rw [den_mk2 _ _ _ _ _ (by
            rw [hcd]
            by_cases hq : q = c.sig
            · subst hq; exact Or.inl hold
            · simp [hq])]
          rw [hcd]
          by_cases hq : q = c.sig
          · subst hq
            simp [hold, PMap.insert]
          · simp [hq, PMap.insert]
    · simp only [h1, if_false]
      have hbn : b = n.bits := by omega
      have hnc : n.sig = Verif.sig c.key b := by rw [← hsig, hbn]
      by_cases h2 : c.bits = n.bits
      · -- replace
        simp only [h2, if_true]
        have hcs : c.sig = n.sig := by
          rw [hnc, hbn, ← h2]
        constructor
        · refine ⟨hc, hp, by simp [hleaf], ?_, ?_⟩
          · rw [hcs]; exact hl
          · rw [hcs]; exact hr
        · funext q
          rw [den_node, PMap.insert, hcs]
          by_cases hq : q = n.sig
          · simp [hq, hleaf]
          · simp [hq, den_node]
      · simp only [h2, if_false]
        have hlt : b < c.bits := by omega
        have hcc : n.sig ++ [branch c.key b] <+: c.sig := by
          rw [hnc]; exact sig_snoc_branch hlt hc
        have hne : c.sig ≠ n.sig := prefix_snoc_ne hcc
        cases hbr : branch c.key b
        · rw [hbr] at hcc
          obtain ⟨i1, i2⟩ := ihl hl hcc
          simp only [Bool.false_eq_true, if_false]
          constructor
          · exact ⟨hb, hpn, fun hf => ⟨insert_ne_nil _ _, (hch hf).2⟩, i1, hr⟩
          · funext q
            rw [den_node, i2]
            simp only [PMap.insert, den_node]
            by_cases hq : q = c.sig
            · simp [hq, hne]
            · simp [hq]
        · rw [hbr] at hcc
          obtain ⟨i1, i2⟩ := ihr hr hcc
          simp only [if_true]
          constructor
          · exact ⟨hb, hpn, fun hf => ⟨(hch hf).1, insert_ne_nil _ _⟩, hl, i1⟩
          · funext q
            rw [den_node, i2]
            simp only [PMap.insert, den_node]
            by_cases hq : q = c.sig
            · have : den l c.sig = none := hl.den_eq_none (fun hx => by
                have := snoc_prefix_inj hx hcc; simp at this)
              simp [hq, hne, this]
            · simp [hq]

/-! ## Match -/

omit [Inhabited V] in
theorem matchN_spec {P : List Bool} {t : NTree w V} (h : WF P t) (k : BitVec w) {b : Nat} (hb : b ≤ w) :
    match matchN t k b with
    | some n => n.sig <+: Verif.sig k b ∧ den t n.sig = some n.value ∧
        ∀ p v, p <+: Verif.sig k b → den t p = some v → p.length ≤ n.sig.length
    | none => ∀ p, p <+: Verif.sig k b → den t p = none := by
  induction t generalizing P with
  | nil => simp [matchN]
  | node n l r ihl ihr =>
    have hwf := h
    obtain ⟨hbn, hpn, hch, hl, hr⟩ := h
    have hself := hwf.children_none_self
    unfold matchN
    by_cases h1 : n.bits > b
    · simp only [h1, if_true]
      intro p hp
      cases hd : den (.node n l r) p with
      | none => rfl
      | some v =>
        have h3 := (hwf.den_node_prefix hd).length_le
        have h4 := hp.length_le
        simp at h3 h4
        omega
    · simp only [h1, if_false]
      by_cases h2 : n.bits = b
      · simp only [h2, if_true]
        by_cases ha : agree n.key k b = true
        · have hs : n.sig = Verif.sig k b := by
            rw [sig_eq_iff]; refine ⟨h2, ?_⟩
            have := (agree_iff hb).1 ha
            rwa [h2]
          by_cases hlf : n.leaf = true
          · simp only [hlf, ha, Bool.and_self, if_true]
            refine ⟨by rw [hs]; exact List.prefix_refl _, ?_, ?_⟩
            · rw [den_node]; simp [hlf]
            · intro p v hp _
              have := hp.length_le
              simp [h2] at this ⊢; exact this
          · simp only [hlf, ha, Bool.and_true, Bool.false_eq_true, if_false]
            intro p hp
            cases hd : den (.node n l r) p with
            | none => rfl
            | some v =>
              have h3 := hwf.den_node_prefix hd
              rw [hs] at h3
              have h5 : p = Verif.sig k b := hp.eq_of_length_le h3.length_le
              rw [h5, ← hs, den_node] at hd
              simp [hlf, hself.1, hself.2] at hd
        · simp only [ha, Bool.and_false, Bool.false_eq_true, if_false]
          intro p hp
          cases hd : den (.node n l r) p with
          | none => rfl
          | some v =>
            exfalso; apply ha
            have h3 := (hwf.den_node_prefix hd).trans hp
            have := (agree_iff_prefix (k1 := n.key) (k2 := k) hbn (by omega)).2 h3
            rwa [h2] at this
      · simp only [h2, if_false]
        by_cases ha : agree n.key k n.bits = true
        · have hs : n.sig <+: Verif.sig k b := (agree_iff_prefix hbn (by omega)).1 ha
          have hlt : n.bits < b := by omega
          have hss : n.sig = Verif.sig k n.bits := by
            rw [sig_eq_iff]; exact ⟨rfl, (agree_iff hbn).1 ha⟩
          have hbr : n.sig ++ [branch k n.bits] <+: Verif.sig k b := by
            rw [hss]; exact sig_snoc_branch hlt hb
          simp only [ha, Bool.not_true, Bool.false_eq_true, if_false]
          -- the child on the branch, its sibling is irrelevant for prefixes of the query
          have key : ∀ (x y : NTree w V), (∀ p, den (.node n l r) p =
                ((if n.leaf = true ∧ p = n.sig then some n.value else none).or (den x p)).or (den y p)) →
              WF (n.sig ++ [branch k n.bits]) x → WF (n.sig ++ [!branch k n.bits]) y →
              (match matchN x k b with
                | some n => n.sig <+: Verif.sig k b ∧ den x n.sig = some n.value ∧
                    ∀ p v, p <+: Verif.sig k b → den x p = some v → p.length ≤ n.sig.length
                | none => ∀ p, p <+: Verif.sig k b → den x p = none) →
              match (match matchN x k b with
                | some x => some x
                | none => if n.leaf = true then some n else none) with
              | some m => m.sig <+: Verif.sig k b ∧ den (.node n l r) m.sig = some m.value ∧
                  ∀ p v, p <+: Verif.sig k b → den (.node n l r) p = some v → p.length ≤ m.sig.length
              | none => ∀ p, p <+: Verif.sig k b → den (.node n l r) p = none := by
            intro x y hden hx hy ih
            have hynone : ∀ p, p <+: Verif.sig k b → den y p = none := by
              intro p hp
              apply hy.den_eq_none
              intro hc
              have := snoc_prefix_inj (hc.trans hp) hbr
              simp at this
            cases hm : matchN x k b with
            | some m =>
              rw [hm] at ih
              obtain ⟨i1, i2, i3⟩ := ih
              have hgt : n.sig ++ [branch k n.bits] <+: m.sig := hx.den_prefix i2
              refine ⟨i1, ?_, ?_⟩
              · rw [hden]; simp [prefix_snoc_ne hgt, i2]
              · intro p v hp hd
                rw [hden, hynone p hp] at hd
                simp only [Option.or_none, Option.or_eq_some_iff] at hd
                rcases hd with hd | ⟨_, hd⟩
                · split at hd
                  · rename_i hc
                    have := hgt.length_le
                    rw [hc.2]; simp at this ⊢; omega
                  · simp at hd
                · exact i3 p v hp hd
            | none =>
              rw [hm] at ih
              by_cases hlf : n.leaf = true
              · simp only [hlf, if_true]
                refine ⟨hs, by rw [hden]; simp [hlf], ?_⟩
                intro p v hp hd
                rw [hden, hynone p hp, ih p hp] at hd
                by_cases hc : p = n.sig
                · rw [hc]; exact Nat.le_refl _
                · simp [hc] at hd
              · simp only [hlf]
                intro p hp
                rw [hden, hynone p hp, ih p hp]
                simp [hlf]
          cases hbr2 : branch k n.bits
          · rw [hbr2] at key
            exact key l r (fun p => den_node n l r p) hl hr (ihl hl)
          · rw [hbr2] at key
            have := key r l (fun p => by
              rw [den_node, ← den_node, ← BTree.mk2_false n l r, den_mk2 n false l r p]
              · cases hx : den l p with
                | none => cases hy : den r p <;> simp
                | some v =>
                  have hz : den r p = none := hr.den_eq_none (fun hc => by
                    have := snoc_prefix_inj hc (hl.den_prefix hx); simp at this)
                  simp [hz]
              · cases hx : den l p with
                | none => simp
                | some v =>
                  right
                  exact hr.den_eq_none (fun hc => by
                    have := snoc_prefix_inj hc (hl.den_prefix hx); simp at this)) hr hl (ihr hr)
            exact this
        · simp only [ha, Bool.not_false, if_true]
          intro p hp
          cases hd : den (.node n l r) p with
          | none => rfl
          | some v =>
            exfalso; apply ha
            exact (agree_iff_prefix hbn (by omega)).2 ((hwf.den_node_prefix hd).trans hp)

/-! ## ExactMatch -/

omit [Inhabited V] in
/-- The located node is a data node with exactly the wanted prefix, and its subtree is the whole part of the tree
below that prefix; if nothing is located nothing is stored there. -/
theorem exactMatch_spec {P : List Bool} {t : NTree w V} (h : WF P t) (k : BitVec w) {b : Nat} (hb : b ≤ w) :
    match exactMatch t k b with
    | .node n l r => n.leaf = true ∧ n.sig = Verif.sig k b ∧ den t n.sig = some n.value ∧
        WF (Verif.sig k b) (.node n l r) ∧ ∀ q, Verif.sig k b <+: q → den (.node n l r) q = den t q
    | .nil => den t (Verif.sig k b) = none := by
  induction t generalizing P with
  | nil => simp [exactMatch]
  | node n l r ihl ihr =>
    have hwf := h
    obtain ⟨hbn, hpn, hch, hl, hr⟩ := h
    have hself := hwf.children_none_self
    unfold exactMatch
    by_cases h1 : n.bits > b
    · simp only [h1, if_true]
      cases hd : den (.node n l r) (Verif.sig k b) with
      | none => rfl
      | some v =>
        have h3 := (hwf.den_node_prefix hd).length_le
        simp at h3
        omega
    · simp only [h1, if_false]
      by_cases h2 : n.bits = b
      · simp only [h2, if_true]
        by_cases ha : agree n.key k b = true
        · have hs : n.sig = Verif.sig k b := by
            rw [sig_eq_iff]; refine ⟨h2, ?_⟩
            have := (agree_iff hb).1 ha
            rwa [h2]
          by_cases hlf : n.leaf = true
          · simp only [hlf, ha, Bool.and_self, if_true]
            refine ⟨trivial, hs, ?_, ?_, fun _ _ => trivial⟩
            · rw [den_node]; simp [hlf]
            · rw [← hs]; exact ⟨hbn, List.prefix_refl _, hch, hl, hr⟩
          · simp only [hlf, ha, Bool.and_true, Bool.false_eq_true, if_false]
            rw [← hs, den_node]; simp [hlf, hself.1, hself.2]
        · simp only [ha, Bool.and_false, Bool.false_eq_true, if_false]
          cases hd : den (.node n l r) (Verif.sig k b) with
          | none => rfl
          | some v =>
            exfalso; apply ha
            have := (agree_iff_prefix (k1 := n.key) (k2 := k) hbn (by omega)).2 (hwf.den_node_prefix hd)
            rwa [h2] at this
      · simp only [h2, if_false]
        by_cases ha : agree n.key k n.bits = true
        · have hlt : n.bits < b := by omega
          have hss : n.sig = Verif.sig k n.bits := by
            rw [sig_eq_iff]; exact ⟨rfl, (agree_iff hbn).1 ha⟩
          have hbr : n.sig ++ [branch k n.bits] <+: Verif.sig k b := by
            rw [hss]; exact sig_snoc_branch hlt hb
          have hne : ∀ q, Verif.sig k b <+: q → q ≠ n.sig := by
            rintro q hq rfl
            have := (hbr.trans hq).length_le; simp at this; omega
          simp only [ha, Bool.not_true, Bool.false_eq_true, if_false]
          cases hbr2 : branch k n.bits
          · rw [hbr2] at hbr
            have hother : ∀ q, Verif.sig k b <+: q → den r q = none := fun q hq =>
              hr.den_eq_none (fun hc => by have := snoc_prefix_inj hc (hbr.trans hq); simp at this)
            have hd : ∀ q, Verif.sig k b <+: q → den (.node n l r) q = den l q := fun q hq => by
              rw [den_node]; simp [hother q hq, hne q hq]
            have ih := ihl hl
            simp only [Bool.false_eq_true, if_false]
            cases hx : exactMatch l k b with
            | nil => rw [hx] at ih; simp only at ih ⊢; rw [hd _ (List.prefix_refl _)]; exact ih
            | node n' l' r' =>
              rw [hx] at ih; simp only at ih ⊢
              obtain ⟨i1, i2, i3, i4, i5⟩ := ih
              refine ⟨i1, i2, ?_, i4, ?_⟩
              · rw [hd _ (by rw [i2]; exact List.prefix_refl _)]; exact i3
              · intro q hq; rw [i5 q hq, hd q hq]
          · rw [hbr2] at hbr
            have hother : ∀ q, Verif.sig k b <+: q → den l q = none := fun q hq =>
              hl.den_eq_none (fun hc => by have := snoc_prefix_inj hc (hbr.trans hq); simp at this)
            have hd : ∀ q, Verif.sig k b <+: q → den (.node n l r) q = den r q := fun q hq => by
              rw [den_node]; simp [hother q hq, hne q hq]
            have ih := ihr hr
            simp only [if_true]
            cases hx : exactMatch r k b with
            | nil => rw [hx] at ih; simp only at ih ⊢; rw [hd _ (List.prefix_refl _)]; exact ih
            | node n' l' r' =>
              rw [hx] at ih; simp only at ih ⊢
              obtain ⟨i1, i2, i3, i4, i5⟩ := ih
              refine ⟨i1, i2, ?_, i4, ?_⟩
              · rw [hd _ (by rw [i2]; exact List.prefix_refl _)]; exact i3
              · intro q hq; rw [i5 q hq, hd q hq]
        · simp only [ha, Bool.not_false, if_true]
          cases hd : den (.node n l r) (Verif.sig k b) with
          | none => rfl
          | some v =>
            exfalso; apply ha
            exact (agree_iff_prefix hbn (by omega)).2 (hwf.den_node_prefix hd)

/-! ## Delete -/

omit [LawfulKeySize w] [Inhabited V] in
theorem delete_none {m : PMap V} {p : List Bool} (h : ∀ q, p <+: q → m q = none) : m.delete p = m := by
  funext q
  unfold PMap.delete
  split
  · rename_i hc; rw [h q (List.isPrefixOf_iff_prefix.1 hc)]
  · rfl

omit [LawfulKeySize w] [Inhabited V] in
/-- What one call of `del` guarantees about its pair of results. -/
def DelSpec (P : List Bool) (t : NTree w V) (k : BitVec w) (b : Nat) (x : NTree w V × Bool) : Prop :=
  WF P x.1 ∧ den x.1 = (den t).delete (Verif.sig k b) ∧
    (x.2 = true ↔ (den t).HasBelow (Verif.sig k b)) ∧ (x.2 = false → x.1 = t)

omit [Inhabited V] in
theorem del_spec {P : List Bool} {t : NTree w V} (h : WF P t) (k : BitVec w) {b : Nat} (hb : b ≤ w) :
    WF P (del t k b).1 ∧ den (del t k b).1 = (den t).delete (Verif.sig k b) ∧
    ((del t k b).2 = true ↔ (den t).HasBelow (Verif.sig k b)) ∧ ((del t k b).2 = false → (del t k b).1 = t) := by
  show DelSpec P t k b (del t k b)
  induction t generalizing P with
  | nil => refine ⟨trivial, ?_, ?_, ?_⟩ <;> simp [del, PMap.HasBelow]; funext q; simp [PMap.delete]
  | node n l r ihl ihr =>
    have hwf := h
    obtain ⟨hbn, hpn, hch, hl, hr⟩ := h
    -- nothing below: unchanged tree
    have hnone : (∀ q, Verif.sig k b <+: q → den (.node n l r) q = none) →
        DelSpec P (.node n l r) k b (.node n l r, false) := by
      intro hn
      refine ⟨hwf, (delete_none hn).symm, ?_, fun _ => rfl⟩
      simp only [Bool.false_eq_true, false_iff]
      rintro ⟨q, v, hq, hv⟩
      rw [hn q hq] at hv; cases hv
    unfold del
    by_cases h1 : b ≤ n.bits
    · simp only [h1, if_true]
      by_cases ha : agree n.key k b = true
      · simp only [ha, if_true]
        have hs : Verif.sig k b <+: n.sig := by
          rw [sig_prefix_iff]; exact ⟨h1, fun i hi => ((agree_iff hb).1 ha i hi).symm⟩
        refine ⟨trivial, ?_, ?_, by simp⟩
        · funext q
          unfold PMap.delete
          split
          · rfl
          · rename_i hc
            cases hd : den (.node n l r) q with
            | none => rfl
            | some v =>
              exact absurd (List.isPrefixOf_iff_prefix.2 (hs.trans (hwf.den_node_prefix hd))) hc
        · simp only [true_iff]
          obtain ⟨q, v, hq⟩ := hwf.exists_den (by simp)
          exact ⟨q, v, hs.trans (hwf.den_node_prefix hq), hq⟩
      · simp only [ha, Bool.false_eq_true, if_false]
        apply hnone
        intro q hq
        cases hd : den (.node n l r) q with
        | none => rfl
        | some v =>
          exfalso; apply ha
          have h3 := hwf.den_node_prefix hd
          have h4 : Verif.sig k b <+: n.sig := List.prefix_of_prefix_length_le hq h3 (by simpa using h1)
          rw [agree_iff hb]
          exact fun i hi => (((sig_prefix_iff _ _ _ _).1 h4).2 i hi).symm
    · simp only [h1, if_false]
      by_cases ha : agree n.key k n.bits = true
      · have hlt : n.bits < b := by omega
        have hss : n.sig = Verif.sig k n.bits := by
          rw [sig_eq_iff]; exact ⟨rfl, (agree_iff hbn).1 ha⟩
        have hbr : n.sig ++ [branch k n.bits] <+: Verif.sig k b := by
          rw [hss]; exact sig_snoc_branch hlt hb
        have hne : ∀ q, Verif.sig k b <+: q → q ≠ n.sig := by
          rintro q hq rfl
          have := (hbr.trans hq).length_le; simp at this; omega
        simp only [ha, Bool.not_true, Bool.false_eq_true, if_false]
        have hnp : Verif.sig k b ≠ n.sig := fun hc => hne _ (List.prefix_refl _) hc
        have hnsig : (Verif.sig k b).isPrefixOf n.sig = false := by
          cases hc : (Verif.sig k b).isPrefixOf n.sig with
          | false => rfl
          | true => exact absurd rfl (hne _ (List.isPrefixOf_iff_prefix.1 hc))
        cases hbr2 : branch k n.bits
        · rw [hbr2] at hbr
          have hother : ∀ q, Verif.sig k b <+: q → den r q = none := fun q hq =>
            hr.den_eq_none (fun hc => by have := snoc_prefix_inj hc (hbr.trans hq); simp at this)
          have hd : ∀ q, Verif.sig k b <+: q → den (.node n l r) q = den l q := fun q hq => by
            rw [den_node]; simp [hother q hq, hne q hq]
          obtain ⟨i1, i2, i3, i4⟩ := ihl hl
          simp only [Bool.false_eq_true, if_false]
          cases hx : del l k b with
          | mk c ok =>
            rw [hx] at i1 i2 i3 i4
            simp only at i1 i2 i3 i4
            cases ok with
            | false =>
              simp only
              apply hnone
              intro q hq
              rw [hd q hq]
              cases hy : den l q with
              | none => rfl
              | some v => exact absurd (i3.2 ⟨q, v, hq, hy⟩) (by simp)
            | true =>
              simp only
              have hflag : (den (.node n l r)).HasBelow (Verif.sig k b) := by
                obtain ⟨q, v, hq, hv⟩ := i3.1 rfl
                exact ⟨q, v, hq, by rw [hd q hq]; exact hv⟩
              have hden : ∀ q, ((if n.leaf = true ∧ q = n.sig then some n.value else none).or (den c q)).or (den r q) =
                  (den (.node n l r)).delete (Verif.sig k b) q := by
                intro q
                rw [i2]
                unfold PMap.delete
                by_cases hq : (Verif.sig k b).isPrefixOf q = true
                · have hq' := List.isPrefixOf_iff_prefix.1 hq
                  simp [hq, hother q hq', hne q hq']
                · simp only [hq, den_node]; simp
              by_cases hcn : c = .nil ∧ n.leaf = false
              · obtain ⟨hcn1, hcn2⟩ := hcn
                subst hcn1
                simp only [BTree.isNil_nil, hcn2, Bool.not_false, Bool.and_self, if_true]
                refine ⟨hr.mono (hpn.trans (List.prefix_append _ _)), ?_, by simpa using hflag, by simp⟩
                funext q
                rw [← hden]
                simp [hcn2]
              · have : (c.isNil && !n.leaf) = false := by
                  cases c <;> cases hlf : n.leaf <;> simp_all
                simp only [this, Bool.false_eq_true, if_false]
                refine ⟨⟨hbn, hpn, fun hf => ⟨fun hc => hcn ⟨hc, hf⟩, (hch hf).2⟩, i1, hr⟩, ?_, by simpa using hflag, by simp⟩
                funext q
                rw [← hden, den_node]
        · rw [hbr2] at hbr
          have hother : ∀ q, Verif.sig k b <+: q → den l q = none := fun q hq =>
            hl.den_eq_none (fun hc => by have := snoc_prefix_inj hc (hbr.trans hq); simp at this)
          have hd : ∀ q, Verif.sig k b <+: q → den (.node n l r) q = den r q := fun q hq => by
            rw [den_node]; simp [hother q hq, hne q hq]
          obtain ⟨i1, i2, i3, i4⟩ := ihr hr
          simp only [if_true]
          cases hx : del r k b with
          | mk c ok =>
            rw [hx] at i1 i2 i3 i4
            simp only at i1 i2 i3 i4
            cases ok with
            | false =>
              simp only
              apply hnone
              intro q hq
              rw [hd q hq]
              cases hy : den r q with
              | none => rfl
              | some v => exact absurd (i3.2 ⟨q, v, hq, hy⟩) (by simp)
            | true =>
              simp only
              have hflag : (den (.node n l r)).HasBelow (Verif.sig k b) := by
                obtain ⟨q, v, hq, hv⟩ := i3.1 rfl
                exact ⟨q, v, hq, by rw [hd q hq]; exact hv⟩
              have hden : ∀ q, ((if n.leaf = true ∧ q = n.sig then some n.value else none).or (den l q)).or (den c q) =
                  (den (.node n l r)).delete (Verif.sig k b) q := by
                intro q
                rw [i2]
                unfold PMap.delete
                by_cases hq : (Verif.sig k b).isPrefixOf q = true
                · have hq' := List.isPrefixOf_iff_prefix.1 hq
                  simp [hq, hother q hq', hne q hq']
                · simp only [hq, den_node]; simp
              by_cases hcn : c = .nil ∧ n.leaf = false
              · obtain ⟨hcn1, hcn2⟩ := hcn
                subst hcn1
                simp only [BTree.isNil_nil, hcn2, Bool.not_false, Bool.and_self, if_true]
                refine ⟨hl.mono (hpn.trans (List.prefix_append _ _)), ?_, by simpa using hflag, by simp⟩
                funext q
                rw [← hden]
                simp [hcn2]
              · have : (c.isNil && !n.leaf) = false := by
                  cases c <;> cases hlf : n.leaf <;> simp_all
                simp only [this, Bool.false_eq_true, if_false]
                refine ⟨⟨hbn, hpn, fun hf => ⟨(hch hf).1, fun hc => hcn ⟨hc, hf⟩⟩, hl, i1⟩, ?_, by simpa using hflag, by simp⟩
                funext q
                rw [← hden, den_node]
      · simp only [ha, Bool.not_false, if_true]
        apply hnone
        intro q hq
        cases hd : den (.node n l r) q with
        | none => rfl
        | some v =>
          exfalso; apply ha
          have h3 := hwf.den_node_prefix hd
          have h4 : n.sig <+: Verif.sig k b := List.prefix_of_prefix_length_le h3 hq (by simp; omega)
          exact (agree_iff_prefix hbn (by omega)).2 h4

end
end Verif.Num
