import Verif.Num.WF

/-! # Shape, size, height and order of well-formed numtrees -/

namespace Verif.Num
variable {w : Nat} {V : Type}

/-! ## Size and height -/

theorem WF.height_le {P : List Bool} {t : NTree w V} (h : WF P t) (hP : P.length ≤ w + 1) :
    P.length + t.height ≤ w + 1 := by
  induction t generalizing P with
  | nil => simpa using hP
  | node n l r ihl ihr =>
    obtain ⟨hb, hp, _, hl, hr⟩ := h
    have h1 := ihl hl (by simp; omega)
    have h2 := ihr hr (by simp; omega)
    have h3 := hp.length_le
    simp at h1 h2 h3 ⊢
    omega

theorem WF.size_lt {P : List Bool} {t : NTree w V} (h : WF P t) (hne : t ≠ .nil) :
    t.size + 1 ≤ 2 * (enumerate t).length := by
  induction t generalizing P with
  | nil => exact absurd rfl hne
  | node n l r ihl ihr =>
    obtain ⟨hb, hp, hc, hl, hr⟩ := h
    have h1 : l = .nil ∨ l.size + 1 ≤ 2 * (enumerate l).length := by
      by_cases hx : l = .nil
      · exact .inl hx
      · exact .inr (ihl hl hx)
    have h2 : r = .nil ∨ r.size + 1 ≤ 2 * (enumerate r).length := by
      by_cases hx : r = .nil
      · exact .inl hx
      · exact .inr (ihr hr hx)
    by_cases hlf : n.leaf = true
    · simp only [enumerate, hlf, if_true, List.length_append, List.length_cons, List.length_nil, BTree.size_node]
      rcases h1 with h1 | h1 <;> rcases h2 with h2 | h2
      · subst h1; subst h2; simp [enumerate]
      · subst h1; simp [enumerate]; omega
      · subst h2; simp [enumerate]; omega
      · omega
    · obtain ⟨h3, h4⟩ := hc (by simpa using hlf)
      simp only [enumerate, hlf, List.length_append, BTree.size_node]
      have := h1.resolve_left h3
      have := h2.resolve_left h4
      simp
      omega

/-! ## Canonical shape -/

/-- Forget the insignificant key bits. -/
def canon [KeySize w] : NTree w V → NTree w V
  | .nil => .nil
  | .node n l r => .node { n with key := n.key &&& mask n.bits } (canon l) (canon r)

variable [LawfulKeySize w]

omit [LawfulKeySize w] in
theorem WF.den_left {P : List Bool} {n : ND w V} {l r : NTree w V} (h : WF P (.node n l r)) (q : List Bool) :
    den l q = if n.sig ++ [false] <+: q then den (.node n l r) q else none := by
  split
  · rename_i hq
    have hr : den r q = none := h.2.2.2.2.den_eq_none (fun hc => by have := snoc_prefix_inj hc hq; simp at this)
    rw [den_node]; simp [hr, prefix_snoc_ne hq]
  · rename_i hq; exact h.2.2.2.1.den_eq_none hq

omit [LawfulKeySize w] in
theorem WF.den_right {P : List Bool} {n : ND w V} {l r : NTree w V} (h : WF P (.node n l r)) (q : List Bool) :
    den r q = if n.sig ++ [true] <+: q then den (.node n l r) q else none := by
  split
  · rename_i hq
    have hl : den l q = none := h.2.2.2.1.den_eq_none (fun hc => by have := snoc_prefix_inj hc hq; simp at this)
    rw [den_node]; simp [hl, prefix_snoc_ne hq]
  · rename_i hq; exact h.2.2.2.2.den_eq_none hq

omit [LawfulKeySize w] in
theorem WF.den_self {P : List Bool} {n : ND w V} {l r : NTree w V} (h : WF P (.node n l r)) :
    den (.node n l r) n.sig = if n.leaf = true then some n.value else none := by
  rw [den_node]; simp [h.children_none_self]

omit [LawfulKeySize w] in
theorem WF.root_sig_prefix {P Q : List Bool} {n m : ND w V} {l r l' r' : NTree w V}
    (h : WF P (.node n l r)) (h' : WF Q (.node m l' r'))
    (hd : den (.node n l r) = den (.node m l' r')) : n.sig <+: m.sig := by
  by_cases hlf : m.leaf = true
  · apply h.den_node_prefix (q := m.sig) (v := m.value)
    rw [hd, h'.den_self]; simp [hlf]
  · obtain ⟨hl, hr⟩ := h'.2.2.1 (by simpa using hlf)
    obtain ⟨q0, v0, hq0⟩ := h'.2.2.2.1.exists_den hl
    obtain ⟨q1, v1, hq1⟩ := h'.2.2.2.2.exists_den hr
    have e0 := hq0
    have e1 := hq1
    rw [h'.den_left] at e0
    rw [h'.den_right] at e1
    have p0 : m.sig ++ [false] <+: q0 := h'.2.2.2.1.den_prefix hq0
    have p1 : m.sig ++ [true] <+: q1 := h'.2.2.2.2.den_prefix hq1
    rw [if_pos p0] at e0
    rw [if_pos p1] at e1
    have a0 := h.den_node_prefix (by rw [hd]; exact e0)
    have a1 := h.den_node_prefix (by rw [hd]; exact e1)
    by_cases hlen : n.sig.length ≤ m.sig.length
    · exact List.prefix_of_prefix_length_le a0 ((List.prefix_append _ _).trans p0) hlen
    · exfalso
      have b0 := List.prefix_of_prefix_length_le p0 a0 (by simp at hlen ⊢; omega)
      have b1 := List.prefix_of_prefix_length_le p1 a1 (by simp at hlen ⊢; omega)
      have := snoc_prefix_inj b0 b1
      simp at this

/-- A well-formed tree is determined by its contents, up to the insignificant bits of keys and the (unused, equal)
values of glue nodes. -/
theorem canon_unique {P Q : List Bool} {t t' : NTree w V} (h : WF P t) (h' : WF Q t') (hd : den t = den t')
    {d : V} (hg : ∀ n ∈ t.toPre, n.leaf = false → n.value = d) (hg' : ∀ n ∈ t'.toPre, n.leaf = false → n.value = d) :
    canon t = canon t' := by
  induction t generalizing P Q t' with
  | nil =>
    cases t' with
    | nil => rfl
    | node m l' r' =>
      obtain ⟨q, v, hq⟩ := h'.exists_den (by simp)
      rw [← hd] at hq; simp at hq
  | node n l r ihl ihr =>
    cases t' with
    | nil =>
      obtain ⟨q, v, hq⟩ := h.exists_den (by simp)
      rw [hd] at hq; simp at hq
    | node m l' r' =>
      have hs : n.sig = m.sig :=
        (h.root_sig_prefix h' hd).eq_of_length_le (h'.root_sig_prefix h hd.symm).length_le
      have hsb := (sig_eq_iff _ _ _ _).1 hs
      have hself := congrFun hd n.sig
      rw [h.den_self, hs, h'.den_self] at hself
      have hl : canon l = canon l' := by
        refine ihl h.2.2.2.1 h'.2.2.2.1 ?_ (fun x hx => hg x (by simp [BTree.toPre, hx])) (fun x hx => hg' x (by simp [BTree.toPre, hx]))
        funext q; rw [h.den_left, h'.den_left, hs, hd]
      have hr : canon r = canon r' := by
        refine ihr h.2.2.2.2 h'.2.2.2.2 ?_ (fun x hx => hg x (by simp [BTree.toPre, hx])) (fun x hx => hg' x (by simp [BTree.toPre, hx]))
        funext q; rw [h.den_right, h'.den_right, hs, hd]
      have hk : n.key &&& mask n.bits = m.key &&& mask m.bits := by
        apply BitVec.eq_of_getMsbD_eq
        intro i hi
        rw [getMsbD_and_mask h.1, getMsbD_and_mask h'.1, ← hsb.1]
        by_cases hi' : i < n.bits
        · rw [hsb.2 i hi']
        · simp [hi']
      have hb := hsb.1
      have hlf : n.leaf = m.leaf ∧ n.value = m.value := by
        cases h1 : n.leaf <;> cases h2 : m.leaf
        · exact ⟨rfl, by rw [hg n (by simp [BTree.toPre]) h1, hg' m (by simp [BTree.toPre]) h2]⟩
        · rw [h1, h2] at hself; simp at hself
        · rw [h1, h2] at hself; simp at hself
        · rw [h1, h2] at hself; exact ⟨rfl, by simpa using hself⟩
      unfold canon
      rw [hl, hr, hk, hb, hlf.1, hlf.2]

/-! ## Order of enumeration -/

/-- Numeric value of a bit list. -/
def val (p : List Bool) : Nat := p.foldl (fun a b => 2 * a + b.toNat) 0

theorem val_snoc (p : List Bool) (b : Bool) : val (p ++ [b]) = 2 * val p + b.toNat := by
  simp [val]

theorem val_append_bounds (p q : List Bool) :
    val p * 2 ^ q.length ≤ val (p ++ q) ∧ val (p ++ q) < (val p + 1) * 2 ^ q.length := by
  induction q generalizing p with
  | nil => simp
  | cons b q ih =>
    have h := ih (p ++ [b])
    rw [val_snoc, List.append_assoc] at h
    simp only [List.length_cons, Nat.pow_succ]
    have hb := b.toNat_le
    have e1 : val p * (2 ^ q.length * 2) = (2 * val p) * 2 ^ q.length := by
      rw [Nat.mul_comm (2 ^ q.length), ← Nat.mul_assoc, Nat.mul_comm (val p) 2]
    have e2 : (val p + 1) * (2 ^ q.length * 2) = (2 * val p + 2) * 2 ^ q.length := by
      rw [Nat.mul_comm (2 ^ q.length), ← Nat.mul_assoc]; congr 1; omega
    rw [e1, e2]
    have h1 : 2 * val p * 2 ^ q.length ≤ (2 * val p + b.toNat) * 2 ^ q.length := Nat.mul_le_mul_right _ (by omega)
    have h2 : (2 * val p + b.toNat + 1) * 2 ^ q.length ≤ (2 * val p + 2) * 2 ^ q.length := Nat.mul_le_mul_right _ (by omega)
    exact ⟨Nat.le_trans h1 h.1, Nat.lt_of_lt_of_le h.2 h2⟩

omit [LawfulKeySize w] in
theorem val_sig (k : BitVec w) {b : Nat} (hb : b ≤ w) : val (Verif.sig k b) = k.toNat / 2 ^ (w - b) := by
  induction b with
  | zero => simp [Verif.sig, val, Nat.div_eq_of_lt k.isLt]
  | succ b ih =>
    rw [sig_succ, val_snoc, ih (by omega)]
    have e : w - b = w - (b + 1) + 1 := by omega
    rw [e, Nat.pow_succ, ← Nat.div_div_eq_div_mul]
    have hbit : (k.getMsbD b).toNat = k.toNat / 2 ^ (w - (b + 1)) % 2 := by
      have h1 : b < w := by omega
      have h2 : w - 1 - b = w - (b + 1) := by omega
      rw [BitVec.getMsbD]
      simp only [h1, decide_true, Bool.true_and, BitVec.getLsbD, h2]
      rw [Nat.testBit_eq_decide_div_mod_eq]
      have := Nat.mod_two_eq_zero_or_one (k.toNat / 2 ^ (w - (b + 1)))
      rcases this with h | h <;> simp [h]
    rw [hbit]
    omega

omit [LawfulKeySize w] in
theorem netKey_range {k : BitVec w} {b : Nat} (hb : b ≤ w) {p : List Bool} (hp : p <+: Verif.sig k b) :
    val p * 2 ^ (w - p.length) ≤ netKey k b ∧ netKey k b < (val p + 1) * 2 ^ (w - p.length) := by
  obtain ⟨q, hq⟩ := hp
  have hlen : p.length + q.length = b := by
    have := congrArg List.length hq; simpa using this
  have h := val_append_bounds p q
  rw [hq, val_sig k hb] at h
  unfold netKey
  have e : 2 ^ (w - p.length) = 2 ^ q.length * 2 ^ (w - b) := by
    rw [← Nat.pow_add]; congr 1; omega
  rw [e, ← Nat.mul_assoc, ← Nat.mul_assoc]
  have hpos : 0 < 2 ^ (w - b) := Nat.two_pow_pos _
  exact ⟨Nat.mul_le_mul_right _ h.1, Nat.mul_lt_mul_of_pos_right h.2 hpos⟩

/-- Strictly earlier in enumeration order: smaller address, or same address and shorter prefix. -/
def Before (a b : ND w V) : Prop :=
  netKey a.key a.bits < netKey b.key b.bits ∨ (netKey a.key a.bits = netKey b.key b.bits ∧ a.bits < b.bits)

omit [LawfulKeySize w] in
theorem WF.enumerate_prop {P : List Bool} {t : NTree w V} (h : WF P t) :
    ∀ n ∈ enumerate t, P <+: n.sig ∧ n.bits ≤ w ∧ n.leaf = true := by
  induction t generalizing P with
  | nil => simp [enumerate]
  | node n l r ihl ihr =>
    obtain ⟨hb, hp, _, hl, hr⟩ := h
    intro m hm
    simp only [enumerate, List.mem_append] at hm
    rcases hm with (hm | hm) | hm
    · split at hm
      · rename_i hlf; simp at hm; subst hm; exact ⟨hp, hb, hlf⟩
      · simp at hm
    · have := ihl hl m hm
      exact ⟨hp.trans ((List.prefix_append _ _).trans this.1), this.2⟩
    · have := ihr hr m hm
      exact ⟨hp.trans ((List.prefix_append _ _).trans this.1), this.2⟩

omit [LawfulKeySize w] in
theorem before_of_snoc {p : List Bool} {a b : ND w V} (ha : a.bits ≤ w) (hb : b.bits ≤ w)
    (h0 : p ++ [false] <+: a.sig) (h1 : p ++ [true] <+: b.sig) : Before a b := by
  left
  have r0 := (netKey_range ha h0).2
  have r1 := (netKey_range hb h1).1
  rw [val_snoc] at r0 r1
  simp at r0 r1
  omega

omit [LawfulKeySize w] in
theorem before_of_parent {n a : ND w V} {b : Bool} (hn : n.bits ≤ w) (ha : a.bits ≤ w)
    (h : n.sig ++ [b] <+: a.sig) : Before n a := by
  have hlt : n.bits < a.bits := by
    have := h.length_le; simp at this; omega
  have r := (netKey_range ha ((List.prefix_append _ _).trans h)).1
  rw [val_sig _ hn] at r
  simp at r
  have : netKey n.key n.bits ≤ netKey a.key a.bits := r
  unfold Before
  omega

omit [LawfulKeySize w] in
theorem WF.enumerate_sorted {P : List Bool} {t : NTree w V} (h : WF P t) :
    (enumerate t).Pairwise Before := by
  induction t generalizing P with
  | nil => simp [enumerate]
  | node n l r ihl ihr =>
    obtain ⟨hb, hp, _, hl, hr⟩ := h
    unfold enumerate
    rw [List.append_assoc, List.pairwise_append, List.pairwise_append]
    have pl := hl.enumerate_prop
    have pr := hr.enumerate_prop
    refine ⟨by split <;> simp, ⟨ihl hl, ihr hr, ?_⟩, ?_⟩
    · intro a ha b hb'
      exact before_of_snoc (pl a ha).2.1 (pr b hb').2.1 (pl a ha).1 (pr b hb').1
    · intro a ha b hb'
      split at ha
      · simp at ha; subst ha
        simp only [List.mem_append] at hb'
        rcases hb' with hb' | hb'
        · exact before_of_parent hb (pl b hb').2.1 (pl b hb').1
        · exact before_of_parent hb (pr b hb').2.1 (pr b hb').1
      · simp at ha

omit [LawfulKeySize w] in
theorem WF.mem_enumerate_iff {P : List Bool} {t : NTree w V} (h : WF P t) (q : List Bool) (v : V) :
    den t q = some v ↔ ∃ n ∈ enumerate t, n.sig = q ∧ n.value = v := by
  induction t generalizing P with
  | nil => simp [enumerate]
  | node n l r ihl ihr =>
    have hself := h.children_none_self
    have hwf := h
    obtain ⟨hb, hp, _, hl, hr⟩ := h
    rw [den_node]
    simp only [enumerate, List.mem_append, Option.or_eq_some_iff]
    constructor
    · rintro ((hq | ⟨_, hq⟩) | ⟨_, hq⟩)
      · split at hq
        · rename_i hc; exact ⟨n, by simp [hc.1], hc.2.symm, by simpa using hq⟩
        · simp at hq
      · obtain ⟨m, hm, h1⟩ := (ihl hl).1 hq; exact ⟨m, .inl (.inr hm), h1⟩
      · obtain ⟨m, hm, h1⟩ := (ihr hr).1 hq; exact ⟨m, .inr hm, h1⟩
    · rintro ⟨m, (hm | hm) | hm, h1, h2⟩
      · split at hm
        · rename_i hlf; simp at hm; subst hm; left; left; simp [hlf, h1, h2]
        · simp at hm
      · have hx := (ihl hl).2 ⟨m, hm, h1, h2⟩
        rw [hwf.den_left] at hx
        split at hx
        · rename_i hpq
          left; right
          refine ⟨by simp [prefix_snoc_ne hpq], (ihl hl).2 ⟨m, hm, h1, h2⟩⟩
        · simp at hx
      · have hx := (ihr hr).2 ⟨m, hm, h1, h2⟩
        have hy := hx
        rw [hwf.den_right] at hx
        split at hx
        · rename_i hpq
          right
          have : den l q = none := hl.den_eq_none (fun hc => by have := snoc_prefix_inj hc hpq; simp at this)
          refine ⟨by simp [prefix_snoc_ne hpq, this], hy⟩
        · simp at hx

end Verif.Num
