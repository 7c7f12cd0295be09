import Verif.Num.History

/-!
# Trees that start from a zero node

`Node32{}` and `Node64{}` are nodes without data and children: not the empty tree, which is a nil pointer.
-/

namespace Verif.Num
variable {w : Nat} {V : Type}

/-- `Node32{}`: the zero value of numtree/node32.go:26-37 (`Node64{}`: node64.go:33-44). -/
def zeroNode (w : Nat) (V : Type) [Inhabited V] : NTree w V := .node ⟨0#w, 0, false, default⟩ .nil .nil

/-- Run a history (newest call first) from `&Node32{}` or `&Node64{}`. -/
def runZ [KeySize w] [Inhabited V] : List (NumOp w V) → NTree w V
  | [] => zeroNode w V
  | .insert k b v :: ops => Insert (runZ ops) k b v
  | .delete k b :: ops => (Delete (runZ ops) k b).1

/-- A root of no bits and no data over trees for the two halves. -/
def Zeroed (t : NTree w V) : Prop := ∃ n l r, t = .node n l r ∧ n.bits = 0 ∧ n.leaf = false ∧ WF [false] l ∧ WF [true] r

/-- What histories from a zero node make. -/
def ZWF (t : NTree w V) : Prop := WF [] t ∨ Zeroed t

theorem nd_sig_zero {n : ND w V} (h : n.bits = 0) : n.sig = [] := by simp [ND.sig, h]

/-- With data at the root it is an ordinary tree. -/
theorem Zeroed.filled {n : ND w V} {l r : NTree w V} (h0 : n.bits = 0) (hl : WF [false] l) (hr : WF [true] r) (v : V) :
    WF [] (.node { n with leaf := true, value := v } l r) := by
  have e : ({ n with leaf := true, value := v } : ND w V).sig = [] := nd_sig_zero h0
  exact ⟨by simp [h0], List.nil_prefix, by simp, by rw [e]; exact hl, by rw [e]; exact hr⟩

theorem den_zeroed {n : ND w V} {l r : NTree w V} (hn : n.leaf = false) (q : List Bool) : den (.node n l r) q = (den l q).or (den r q) := by
  simp [den_node, hn]

/-- A stored prefix of a query lies on the side of the query. -/
theorem den_side {n : ND w V} {l r : NTree w V} (hn : n.leaf = false) (hl : WF [false] l) (hr : WF [true] r) (b : Bool) {q : List Bool} (hq : q = [] ∨ [b] <+: q) :
    den (.node n l r) q = den (if b then r else l) q := by
  rw [den_zeroed hn]
  have other : ∀ {c : Bool} {t : NTree w V}, WF [c] t → c ≠ b → den t q = none := by
    intro c t ht hc
    refine ht.den_eq_none fun hp => ?_
    rcases hq with rfl | hq
    · simp at hp
    · exact hc (snoc_prefix_inj (p := []) hp hq)
  cases b with
  | false => rw [other hr (by simp)]; simp
  | true => rw [other hl (by simp)]; simp

theorem prefix_side {p q : List Bool} {b : Bool} (hq : [b] <+: q) (hp : p <+: q) : p = [] ∨ [b] <+: p := by
  cases p with
  | nil => exact .inl rfl
  | cons a p =>
    refine .inr ?_
    obtain ⟨x, rfl⟩ := hq
    obtain ⟨y, hy⟩ := hp
    simp at hy
    rw [hy.1]; exact ⟨p, rfl⟩

section
variable [LawfulKeySize w]

theorem agree_zero (a b : BitVec w) : agree a b 0 = true := (agree_iff (Nat.zero_le _)).2 fun _ hi => absurd hi (Nat.not_lt_zero _)

omit [LawfulKeySize w] in
theorem branch_side (k : BitVec w) {b : Nat} (h0 : 0 < b) (hb : b ≤ w) : [branch k 0] <+: Verif.sig k b := sig_snoc_branch h0 hb

theorem Zeroed.matchN_spec {t : NTree w V} (h : Zeroed t) (k : BitVec w) {b : Nat} (hb : b ≤ w) :
    match matchN t k b with
    | some n => n.sig <+: Verif.sig k b ∧ den t n.sig = some n.value ∧ ∀ p v, p <+: Verif.sig k b → den t p = some v → p.length ≤ n.sig.length
    | none => ∀ p, p <+: Verif.sig k b → den t p = none := by
  obtain ⟨n, l, r, rfl, h0, hn, hl, hr⟩ := h
  rcases Nat.eq_zero_or_pos b with rfl | hp
  · have e : matchN (.node n l r) k 0 = none := by simp [matchN, h0, hn]
    rw [e]
    intro p hp
    have : p = [] := by simpa using hp
    subst this
    rw [den_zeroed hn, hl.den_eq_none (by simp), hr.den_eq_none (by simp)]; rfl
  · have e : matchN (.node n l r) k b = matchN (if branch k 0 then r else l) k b := by
      simp only [matchN, h0, hn, agree_zero]
      rw [if_neg (by omega), if_neg (by omega)]
      cases branch k 0 <;> simp <;> split <;> simp_all
    have hs := branch_side k hp hb
    have hw : WF [branch k 0] (if branch k 0 then r else l) := by cases branch k 0 <;> assumption
    have hd : ∀ {q}, q <+: Verif.sig k b → den (.node n l r) q = den (if branch k 0 then r else l) q :=
      fun hq => den_side hn hl hr _ (prefix_side hs hq)
    have := Num.matchN_spec hw k hb
    rw [e]
    split at this
    · rename_i m hm
      rw [hm]
      exact ⟨this.1, by rw [hd this.1]; exact this.2.1, fun p v hp hv => this.2.2 p v hp (by rw [← hd hp]; exact hv)⟩
    · rename_i hm
      rw [hm]
      exact fun p hp => by rw [hd hp]; exact this p hp

theorem Zeroed.exactMatch_eq {t : NTree w V} (h : Zeroed t) (k : BitVec w) (b : Int) : ExactMatch t k b = den t (Verif.sig k (clampSpec w b)) := by
  obtain ⟨n, l, r, rfl, h0, hn, hl, hr⟩ := h
  have hb := clamp_le (w := w) b
  rcases Nat.eq_zero_or_pos (clamp w b) with hz | hp
  · have hz' : clampSpec w b = 0 := hz
    rw [hz', sig_zero, den_zeroed hn, hl.den_eq_none (by simp), hr.den_eq_none (by simp)]
    simp [ExactMatch, FindNode, hz, exactMatch, h0, hn]
  · have e : ExactMatch (.node n l r) k b = ExactMatch (if branch k 0 then r else l) k b := by
      simp only [ExactMatch, FindNode]
      rw [show exactMatch (.node n l r) k (clamp w b) = exactMatch (if branch k 0 then r else l) k (clamp w b) by
        rw [exactMatch]
        simp only [h0, agree_zero]
        rw [if_neg (by omega), if_neg (by omega)]
        cases branch k 0 <;> simp]
    have hw : WF [branch k 0] (if branch k 0 then r else l) := by cases branch k 0 <;> assumption
    rw [e, exactMatch_eq_den hw]
    exact (den_side hn hl hr (branch k 0) (.inr (branch_side k hp hb))).symm

omit [LawfulKeySize w] in
theorem Zeroed.enumerate {t : NTree w V} (h : Zeroed t) : (∀ q v, den t q = some v ↔ ∃ n ∈ Enumerate t, Verif.sig n.key n.bits = q ∧ n.value = v) ∧
    (Enumerate t).Pairwise fun a b => netKey a.key a.bits < netKey b.key b.bits ∨ (netKey a.key a.bits = netKey b.key b.bits ∧ a.bits < b.bits) := by
  obtain ⟨n, l, r, rfl, h0, hn, hl, hr⟩ := h
  refine ⟨fun q v => ?_, ?_⟩
  · have a := hl.mem_enumerate_iff q v
    have b := hr.mem_enumerate_iff q v
    rw [den_zeroed hn]
    simp only [Enumerate, Num.enumerate, hn, Bool.false_eq_true, if_false, List.nil_append, List.mem_append, or_and_right, exists_or]
    constructor
    · intro h
      rcases Option.or_eq_some_iff.1 h with h | ⟨_, h⟩
      · exact .inl (a.1 h)
      · exact .inr (b.1 h)
    · rintro (h | h)
      · rw [a.2 h]; rfl
      · have h2 := b.2 h
        rw [hl.den_eq_none fun hp => absurd (snoc_prefix_inj (p := []) hp (hr.den_prefix h2)) (by simp)]
        exact h2
  · cases hv : Num.enumerate (.node n l r) with
    | nil => simp [Enumerate, hv]
    | cons x xs =>
      have := (Zeroed.filled h0 hl hr x.value).enumerate_sorted
      simp only [Num.enumerate, hn, if_true, Bool.false_eq_true, if_false, List.nil_append, List.cons_append, List.pairwise_cons] at this hv ⊢
      simp only [Enumerate, Num.enumerate, hn, Bool.false_eq_true, if_false, List.nil_append]
      exact this.2

omit [LawfulKeySize w] in
theorem Zeroed.height_le {t : NTree w V} (h : Zeroed t) : t.height ≤ w + 1 := by
  obtain ⟨n, l, r, rfl, h0, hn, hl, hr⟩ := h
  by_cases he : l = .nil ∧ r = .nil
  · rw [he.1, he.2]; simp
  · have : ∃ v : V, True := by
      rcases Classical.not_and_iff_not_or_not.1 he with h | h
      · obtain ⟨_, v, _⟩ := hl.exists_den h; exact ⟨v, trivial⟩
      · obtain ⟨_, v, _⟩ := hr.exists_den h; exact ⟨v, trivial⟩
    obtain ⟨v, _⟩ := this
    have := (Zeroed.filled h0 hl hr v).height_le (by simp)
    simpa using this

theorem Zeroed.insert_spec [Inhabited V] {t : NTree w V} (h : Zeroed t) {c : ND w V} (hc : c.bits ≤ w) (hleaf : c.leaf = true) :
    ZWF (insert t c) ∧ den (insert t c) = (den t).insert c.sig c.value := by
  obtain ⟨n, l, r, rfl, h0, hn, hl, hr⟩ := h
  have hz : ncsb n.key n.bits c.key c.bits = 0 := by
    have := (ncsb_le (k1 := n.key) (k2 := c.key) (b1 := n.bits) (b2 := c.bits) (by omega) hc).1
    omega
  rcases Nat.eq_zero_or_pos c.bits with hb | hp
  · have e : insert (.node n l r) c = .node c l r := by
      simp only [insert, hz]; rw [if_neg (by omega), if_pos (by omega)]
    have hs : c.sig = [] := nd_sig_zero hb
    rw [e]
    refine ⟨.inl ⟨hc, List.nil_prefix, by simp [hleaf], by rw [hs]; exact hl, by rw [hs]; exact hr⟩, ?_⟩
    funext q
    rw [den_node, PMap.insert, den_zeroed hn, hs, hleaf]
    by_cases hq : q = [] <;> simp [hq]
  · have hs : [branch c.key 0] <+: c.sig := branch_side c.key hp hc
    have hi : ∀ q, ¬ [branch c.key 0] <+: q → q ≠ c.sig := by rintro q hq rfl; exact hq hs
    have e : insert (.node n l r) c = if branch c.key 0 then .node n l (insert r c) else .node n (insert l c) r := by
      simp only [insert, hz]; rw [if_neg (by omega), if_neg (by omega)]
    rw [e]
    cases hbr : branch c.key 0 with
    | false =>
      rw [hbr] at hs
      obtain ⟨i1, i2⟩ := Num.insert_spec hl hc hleaf hs
      refine ⟨.inr ⟨n, _, r, rfl, h0, hn, i1, hr⟩, ?_⟩
      funext q
      simp only [Bool.false_eq_true, if_false]
      rw [den_zeroed hn, i2, PMap.insert, PMap.insert, den_zeroed hn]
      by_cases hq : q = c.sig <;> simp [hq]
    | true =>
      rw [hbr] at hs
      obtain ⟨i1, i2⟩ := Num.insert_spec hr hc hleaf hs
      refine ⟨.inr ⟨n, l, _, rfl, h0, hn, hl, i1⟩, ?_⟩
      funext q
      simp only [if_true]
      rw [den_zeroed hn, i2, PMap.insert, PMap.insert, den_zeroed hn]
      by_cases hq : q = c.sig
      · subst hq
        rw [hl.den_eq_none fun hp => absurd (snoc_prefix_inj (p := []) hp hs) (by simp)]; simp
      · simp [hq]

theorem Zeroed.del_spec {t : NTree w V} (h : Zeroed t) (k : BitVec w) {b : Nat} (hb : b ≤ w) :
    ZWF (del t k b).1 ∧ den (del t k b).1 = (den t).delete (Verif.sig k b) ∧
    ((del t k b).2 = true ↔ (den t).HasBelow (Verif.sig k b) ∨ b = 0) ∧ ((del t k b).2 = false → (del t k b).1 = t) := by
  have h' := h
  obtain ⟨n, l, r, rfl, h0, hn, hl, hr⟩ := h
  rcases Nat.eq_zero_or_pos b with rfl | hp
  · have e : del (.node n l r) k 0 = (.nil, true) := by simp [del, agree_zero]
    rw [e]
    refine ⟨.inl trivial, ?_, by simp, by simp⟩
    funext q; simp [PMap.delete]
  · have hs := branch_side k hp hb
    -- the other side does not change
    have away : ∀ {c : Bool} {t : NTree w V} {q}, WF [c] t → c ≠ branch k 0 → Verif.sig k b <+: q → den t q = none :=
      fun ht hc hq => ht.den_eq_none fun hp => hc (snoc_prefix_inj (p := []) hp (hs.trans hq))
    cases hbr : branch k 0 with
    | false =>
      rw [hbr] at away
      obtain ⟨d1, d2, d3, d4⟩ := Num.del_spec hl k hb
      have hbelow : (den (.node n l r)).HasBelow (Verif.sig k b) ↔ (den l).HasBelow (Verif.sig k b) := by
        constructor
        · rintro ⟨q, v, hq, hv⟩
          rw [den_zeroed hn, away hr (by simp) hq] at hv
          exact ⟨q, v, hq, by simpa using hv⟩
        · rintro ⟨q, v, hq, hv⟩
          exact ⟨q, v, hq, by rw [den_zeroed hn, hv]; rfl⟩
      have hden : ∀ t' : NTree w V, den t' = (den l).delete (Verif.sig k b) → ∀ q, (den t' q).or (den r q) = (den (.node n l r)).delete (Verif.sig k b) q := by
        intro t' ht q
        rw [ht, PMap.delete, PMap.delete, den_zeroed hn]
        split
        · rename_i hq; rw [away hr (by simp) (List.isPrefixOf_iff_prefix.1 hq)]; rfl
        · rfl
      have e : del (.node n l r) k b = match del l k b with
          | (_, false) => (.node n l r, false)
          | (c, true) => if c.isNil && !n.leaf then (r, true) else (.node n c r, true) := by
        rw [del]; simp only [h0, agree_zero, hbr]; rw [if_neg (by omega)]; rcases del l k b with ⟨_, _ | _⟩ <;> rfl
      rw [e, hbelow, ← d3]
      rcases hd : del l k b with ⟨c, _ | _⟩
      · rw [hd] at d1 d2 d3 d4
        have hc : c = l := d4 rfl
        refine ⟨.inr h', ?_, by simp; omega, by simp⟩
        funext q; rw [← hden c d2 q, hc, ← den_zeroed hn]
      · rw [hd] at d1 d2 d3 d4
        cases c with
        | nil =>
          simp only [BTree.isNil, hn]
          refine ⟨.inl (hr.mono List.nil_prefix), ?_, by simp, by simp⟩
          funext q; rw [← hden .nil d2 q]; simp
        | node m x y =>
          simp only [BTree.isNil, Bool.false_and, Bool.false_eq_true, if_false]
          refine ⟨.inr ⟨n, _, r, rfl, h0, hn, d1, hr⟩, ?_, by simp, by simp⟩
          funext q; rw [den_zeroed hn]; exact hden _ d2 q
    | true =>
      rw [hbr] at away
      obtain ⟨d1, d2, d3, d4⟩ := Num.del_spec hr k hb
      have hbelow : (den (.node n l r)).HasBelow (Verif.sig k b) ↔ (den r).HasBelow (Verif.sig k b) := by
        constructor
        · rintro ⟨q, v, hq, hv⟩
          rw [den_zeroed hn, away hl (by simp) hq] at hv
          exact ⟨q, v, hq, by simpa using hv⟩
        · rintro ⟨q, v, hq, hv⟩
          exact ⟨q, v, hq, by rw [den_zeroed hn, away hl (by simp) hq, hv]; rfl⟩
      have hden : ∀ t' : NTree w V, den t' = (den r).delete (Verif.sig k b) → ∀ q, (den l q).or (den t' q) = (den (.node n l r)).delete (Verif.sig k b) q := by
        intro t' ht q
        rw [ht, PMap.delete, PMap.delete, den_zeroed hn]
        split
        · rename_i hq; rw [away hl (by simp) (List.isPrefixOf_iff_prefix.1 hq)]; rfl
        · rfl
      have e : del (.node n l r) k b = match del r k b with
          | (_, false) => (.node n l r, false)
          | (c, true) => if c.isNil && !n.leaf then (l, true) else (.node n l c, true) := by
        rw [del]; simp only [h0, agree_zero, hbr]; rw [if_neg (by omega)]; rcases del r k b with ⟨_, _ | _⟩ <;> rfl
      rw [e, hbelow, ← d3]
      rcases hd : del r k b with ⟨c, _ | _⟩
      · rw [hd] at d1 d2 d3 d4
        have hc : c = r := d4 rfl
        refine ⟨.inr h', ?_, by simp; omega, by simp⟩
        funext q; rw [← hden c d2 q, hc, ← den_zeroed hn]
      · rw [hd] at d1 d2 d3 d4
        cases c with
        | nil =>
          simp only [BTree.isNil, hn]
          refine ⟨.inl (hl.mono List.nil_prefix), ?_, by simp, by simp⟩
          funext q; rw [← hden .nil d2 q]; simp
        | node m x y =>
          simp only [BTree.isNil, Bool.false_and, Bool.false_eq_true, if_false]
          refine ⟨.inr ⟨n, l, _, rfl, h0, hn, hl, d1⟩, ?_, by simp, by simp⟩
          funext q; rw [den_zeroed hn]; exact hden _ d2 q

omit [LawfulKeySize w] in
theorem zeroed_zeroNode [Inhabited V] : Zeroed (zeroNode w V) := ⟨_, _, _, rfl, rfl, rfl, trivial, trivial⟩

theorem runZ_spec [Inhabited V] (ops : List (NumOp w V)) : ZWF (runZ ops) ∧ den (runZ ops) = lastWrite (ops.map NumOp.abs) := by
  induction ops with
  | nil => exact ⟨.inr zeroed_zeroNode, by funext q; simp [runZ, zeroNode, den_node, lastWrite]⟩
  | cons op ops ih =>
    obtain ⟨h1, h2⟩ := ih
    cases op with
    | insert k b v =>
      have : ZWF (insert (runZ ops) ⟨k, clamp w b, true, v⟩) ∧ den (insert (runZ ops) ⟨k, clamp w b, true, v⟩) =
          (den (runZ ops)).insert (ND.sig (⟨k, clamp w b, true, v⟩ : ND w V)) v := by
        rcases h1 with h1 | h1
        · have := Num.insert_spec h1 (c := ⟨k, clamp w b, true, v⟩) (clamp_le b) rfl List.nil_prefix
          exact ⟨.inl this.1, this.2⟩
        · exact h1.insert_spec (c := ⟨k, clamp w b, true, v⟩) (clamp_le b) rfl
      refine ⟨this.1, ?_⟩
      simp only [runZ, Insert]
      rw [this.2, h2]
      funext q
      simp only [PMap.insert, List.map_cons, NumOp.abs, lastWrite, ND.sig, clamp_eq]
      by_cases hq : q = Verif.sig k (clampSpec w b) <;> simp [hq]
    | delete k b =>
      have : ZWF (del (runZ ops) k (clamp w b)).1 ∧ den (del (runZ ops) k (clamp w b)).1 = (den (runZ ops)).delete (Verif.sig k (clamp w b)) := by
        rcases h1 with h1 | h1
        · have := Num.del_spec h1 k (clamp_le b)
          exact ⟨.inl this.1, this.2.1⟩
        · have := h1.del_spec k (clamp_le b)
          exact ⟨this.1, this.2.1⟩
      refine ⟨this.1, ?_⟩
      simp only [runZ, Delete]
      rw [this.2, h2]
      funext q
      simp only [PMap.delete, List.map_cons, NumOp.abs, lastWrite, clamp_eq, List.isPrefixOf_iff_prefix]

end

end Verif.Num
