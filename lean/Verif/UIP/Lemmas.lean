import Verif.UIP.Model
import Verif.IP.History

/-! # Invariant and one-step lemmas of the generated IP trees -/

namespace Verif.UIP
open Verif Verif.Num Verif.IP
variable {V : Type}

/-- Networks stored in `root64`. -/
def den6 (t : NTree 64 (NTree 64 V)) : PMap V := fun q => (den t (q.take 64)).bind fun s => den s (q.drop 64)

/-- Nested trees are not empty, and hold nothing but the empty prefix below 64 bits. -/
def Typed (q : List Bool) (s : NTree 64 V) : Prop := s ≠ .nil ∧ WF [] s ∧ (q.length < 64 → ∀ r v, den s r = some v → r = [])

/-- Invariant of `root64`. -/
def WF6 (t : NTree 64 (NTree 64 V)) : Prop := WF [] t ∧ ∀ q s, den t q = some s → Typed q s

/-- Invariant of trees. -/
structure WFT (t : Tree V) : Prop where
  v4 : WF [] t.root32
  v6 : WF6 t.root64

/-- The networks a tree stores. -/
def denT (t : Tree V) : Fam → PMap V
  | .v4 => den t.root32
  | .v6 => den6 t.root64

/-- The tree a nil pointer stands for. -/
def base (t : Option (Tree V)) : Tree V := t.getD ⟨.nil, .nil⟩

@[simp] theorem base_none : base (none : Option (Tree V)) = ⟨.nil, .nil⟩ := rfl
@[simp] theorem base_some (t : Tree V) : base (some t) = t := rfl

theorem wft_new : WFT (⟨.nil, .nil⟩ : Tree V) := ⟨trivial, trivial, by intro q v h; cases h⟩

theorem denT_new (f : Fam) (q : List Bool) : denT (⟨.nil, .nil⟩ : Tree V) f q = none := by
  cases f <;> simp [denT, den6]

theorem pre_take {p q : List Bool} (h : p <+: q) (n : Nat) : p.take n <+: q.take n := by
  obtain ⟨r, rfl⟩ := h
  rw [List.take_append]; exact List.prefix_append _ _

theorem pre_drop {p q : List Bool} (h : p <+: q) (n : Nat) (hn : n ≤ p.length) : p.drop n <+: q.drop n := by
  obtain ⟨r, rfl⟩ := h
  rw [List.drop_append_of_le_length hn]; exact List.prefix_append _ _

theorem short_nil {k : Pair64} (hk : k.Ok) (hm : k.msBits < 64) : sig k.lsKey k.lsBits = [] := by
  rw [hk.zero hm]; simp [sig]

theorem take_drop_bits {k : Pair64} (hk : k.Ok) : k.bits.take 64 = sig k.msKey k.msBits ∧ k.bits.drop 64 = sig k.lsKey k.lsBits := by
  by_cases hm : k.msBits < 64
  · have e := short_nil hk hm
    have hb : k.bits = sig k.msKey k.msBits := by rw [Pair64.bits, e, List.append_nil]
    rw [hb, e]
    exact ⟨List.take_of_length_le (by simp; omega), List.drop_of_length_le (by simp; omega)⟩
  · have hm' := hk.full hm
    rw [hm']; exact take_bits hm'

theorem eq_bits {k : Pair64} (hk : k.Ok) (q : List Bool) : q = k.bits ↔ q.take 64 = sig k.msKey k.msBits ∧ q.drop 64 = sig k.lsKey k.lsBits := by
  constructor
  · rintro rfl; exact take_drop_bits hk
  · rintro ⟨h1, h2⟩; rw [← List.take_append_drop 64 q, h1, h2]; rfl

/-- Storing a nested tree under a prefix of `root64`. -/
theorem insert6 {t : NTree 64 (NTree 64 V)} (h : WF6 t) (k : BitVec 64) {b : Nat} (hb : b ≤ 64) {s : NTree 64 V} (hs : Typed (sig k b) s) :
    WF6 (Num.Insert t k b s) ∧ ∀ q, den6 (Num.Insert t k b s) q = if q.take 64 = sig k b then den s (q.drop 64) else den6 t q := by
  obtain ⟨i1, i2⟩ := insert_den h.1 k hb s
  refine ⟨⟨i1, fun q x hq => ?_⟩, fun q => ?_⟩
  · rw [i2] at hq
    split at hq
    · rename_i e; cases hq; rw [e]; exact hs
    · exact h.2 q x hq
  · unfold den6
    rw [i2]
    split <;> rfl

section
variable [Inhabited V]

theorem insertNet_ok {t : Option (Tree V)} (h : WFT (base t)) {n : IPNet} {f : Fam} {p : List Bool} (hn : IsNet n f p) (v : V) :
    ∃ t', InsertNet t (some n) v = some t' ∧ WFT t' ∧ ∀ g q, denT t' g q = if g = f ∧ q = p then some v else denT (base t) g q := by
  cases f with
  | v4 =>
    obtain ⟨k, b, h1, h2, rfl⟩ := v4Key_of_isNet hn
    refine ⟨⟨Num.Insert (base t).root32 k b v, (base t).root64⟩, by simp [InsertNet, h1, base], ?_, ?_⟩
    · exact ⟨(insert_den h.v4 k h2 v).1, h.v6⟩
    · intro g q
      cases g with
      | v4 => simp only [denT, (insert_den h.v4 k h2 v).2, true_and]
      | v6 => simp [denT]
  | v6 =>
    have h4 := v4Key_of_v6 hn
    obtain ⟨k, h1, hk, rfl⟩ := v6Pair_of_isNet hn
    refine ⟨⟨(base t).root32, Num.Insert (base t).root64 k.msKey k.msBits
      (Num.Insert ((ExactMatch (base t).root64 k.msKey k.msBits).getD .nil) k.lsKey k.lsBits v)⟩, by simp [InsertNet, h4, h1, base], ?_⟩
    have he := exactMatch_den h.v6.1 k.msKey hk.ms
    rw [he]
    -- the nested tree before
    have hs : WF [] ((den (base t).root64 (sig k.msKey k.msBits)).getD .nil) ∧
        ((sig k.msKey k.msBits).length < 64 → ∀ r v, den ((den (base t).root64 (sig k.msKey k.msBits)).getD .nil) r = some v → r = []) := by
      cases hd : den (base t).root64 (sig k.msKey k.msBits) with
      | none => exact ⟨trivial, by simp⟩
      | some s => exact ⟨(h.v6.2 _ s hd).2.1, (h.v6.2 _ s hd).2.2⟩
    obtain ⟨i1, i2⟩ := insert_den hs.1 k.lsKey hk.ls v
    have ht : Typed (sig k.msKey k.msBits) (Num.Insert ((den (base t).root64 (sig k.msKey k.msBits)).getD .nil) k.lsKey k.lsBits v) := by
      refine ⟨insert_ne_nil' _ _ _ _, i1, fun hl r w hr => ?_⟩
      rw [i2] at hr
      split at hr
      · rename_i e; rw [e]; exact short_nil hk (by simpa using hl)
      · exact hs.2 hl r w hr
    obtain ⟨j1, j2⟩ := insert6 h.v6 k.msKey hk.ms ht
    refine ⟨⟨h.v4, j1⟩, fun g q => ?_⟩
    cases g with
    | v4 => simp [denT]
    | v6 =>
      simp only [denT, true_and]
      rw [j2, i2]
      simp only [eq_bits hk]
      by_cases e1 : q.take 64 = sig k.msKey k.msBits
      · rw [if_pos e1]
        by_cases e2 : q.drop 64 = sig k.lsKey k.lsBits
        · simp [e1, e2]
        · simp only [e1, e2, and_false, if_false]
          unfold den6
          rw [e1]
          cases den (base t).root64 (sig k.msKey k.msBits) <;> simp
      · simp [e1]

theorem insertNet_bad {t : Option (Tree V)} {n : IPNet} (hn : ∀ f p, ¬ IsNet n f p) (v : V) : InsertNet t (some n) v = t := by
  obtain ⟨h1, h2⟩ := keys_of_not hn
  simp [InsertNet, h1, h2]

end

/-! ## Lookup -/

theorem match_short {s : NTree 64 V} {q : List Bool} (hs : Typed q s) (hq : q.length < 64) (k : BitVec 64) (b : Nat) :
    ∃ v, den s [] = some v ∧ Match s k b = some v := by
  obtain ⟨h1, h2, h3⟩ := hs
  obtain ⟨r, v, hr⟩ := h2.exists_den h1
  have := h3 hq r v hr
  subst this
  refine ⟨v, hr, ?_⟩
  have hM := match_longest h2 k b
  rcases hM with ⟨r, w, e1, e2, e3, e4⟩ | ⟨e1, e2⟩
  · have := h3 hq r w e3
    subst this
    rw [hr] at e3; cases e3; exact e1
  · rw [e2 [] List.nil_prefix] at hr; cases hr

theorem getByNet_ok {t : Tree V} (h : WFT t) {n : IPNet} {f : Fam} {p : List Bool} (hn : IsNet n f p) :
    (denT t f).IsLongestMatch p (GetByNet (some t) (some n)) := by
  cases f with
  | v4 =>
    obtain ⟨k, b, h1, h2, rfl⟩ := v4Key_of_isNet hn
    have := match_longest h.v4 k b
    rw [clampSpec_le h2] at this
    simpa only [GetByNet, h1, denT] using this
  | v6 =>
    have h4 := v4Key_of_v6 hn
    obtain ⟨k, h1, hk, rfl⟩ := v6Pair_of_isNet hn
    simp only [GetByNet, h4, h1, denT]
    have hM := match_longest h.v6.1 k.msKey k.msBits
    rw [clampSpec_le hk.ms] at hM
    -- prefixes of the query split in two
    have hsplit : ∀ q, q <+: k.bits → q.take 64 <+: sig k.msKey k.msBits ∧ (64 ≤ q.length → q.take 64 = sig k.msKey k.msBits ∧ q.drop 64 <+: sig k.lsKey k.lsBits) := by
      intro q hq
      have ht := take_drop_bits hk
      constructor
      · rw [← ht.1]; exact pre_take hq 64
      · intro hl
        have h5 : q.take 64 <+: k.bits.take 64 := pre_take hq 64
        have h6 := hq.length_le
        refine ⟨?_, ?_⟩
        · rw [← ht.1]
          exact h5.eq_of_length (by simp; omega)
        · rw [← ht.2]; exact pre_drop hq 64 hl
    have hshort : ∀ q : List Bool, q.length < 64 → q.take 64 = q ∧ q.drop 64 = [] := fun q hq =>
      ⟨List.take_of_length_le (by omega), List.drop_of_length_le (by omega)⟩
    -- a stored network below 64 bits
    have hst : ∀ q v, q.length < 64 → (den6 t.root64 q = some v ↔ ∃ s, den t.root64 q = some s ∧ den s [] = some v) := by
      intro q v hq
      unfold den6
      rw [(hshort q hq).1, (hshort q hq).2]
      cases den t.root64 q <;> simp
    rcases hM with ⟨q, s, e1, e2, e3, e4⟩ | ⟨e1, e2⟩
    · simp only [e1]
      have hT := h.v6.2 q s e3
      have hql : q.length ≤ 64 := by have := e2.length_le; simp at this; have := hk.ms; omega
      by_cases hq : q.length < 64
      · obtain ⟨v, v1, v2⟩ := match_short hT hq k.lsKey k.lsBits
        simp only [v2]
        refine .inl ⟨q, v, rfl, e2.trans (List.prefix_append _ _), (hst q v hq).2 ⟨s, e3, v1⟩, ?_⟩
        intro q' v' hq' hv'
        unfold den6 at hv'
        cases hd : den t.root64 (q'.take 64) with
        | none => rw [hd] at hv'; cases hv'
        | some s' =>
          have := e4 _ s' (hsplit q' hq').1 hd
          simp at this; omega
      · have hq64 : q.length = 64 := by omega
        have hms : k.msBits = 64 := by have := e2.length_le; simp at this; have := hk.ms; omega
        have hqe : q = sig k.msKey k.msBits := e2.eq_of_length (by simp [hms, hq64])
        have hM2 := match_longest hT.2.1 k.lsKey k.lsBits
        rw [clampSpec_le hk.ls] at hM2
        have hlong : ∀ q' v', q' <+: k.bits → 64 ≤ q'.length → den6 t.root64 q' = some v' →
            q'.drop 64 <+: sig k.lsKey k.lsBits ∧ den s (q'.drop 64) = some v' := by
          intro q' v' hq' hl hv'
          obtain ⟨a1, a2⟩ := (hsplit q' hq').2 hl
          unfold den6 at hv'
          rw [a1, ← hqe, e3] at hv'
          exact ⟨a2, hv'⟩
        rcases hM2 with ⟨r, v, f1, f2, f3, f4⟩ | ⟨f1, f2⟩
        · simp only [f1]
          refine .inl ⟨q ++ r, v, rfl, ?_, ?_, ?_⟩
          · rw [Pair64.bits, hqe]; exact (List.prefix_append_right_inj _).2 f2
          · unfold den6
            rw [List.take_left' hq64, List.drop_left' hq64, e3]; exact f3
          · intro q' v' hq' hv'
            by_cases hl : q'.length < 64
            · simp; omega
            · obtain ⟨a1, a2⟩ := hlong q' v' hq' (by omega) hv'
              have := f4 _ v' a1 a2
              simp at this ⊢; omega
        · simp only [f1]
          rw [if_neg (by omega)]
          have hM63 := match_longest h.v6.1 k.msKey ((k.msBits : Int) - 1)
          have hcl : clampSpec 64 ((k.msBits : Int) - 1) = 63 := by rw [hms]; decide
          rw [hcl] at hM63
          have h63 : ∀ q', q' <+: k.bits → q'.length < 64 → q' <+: sig k.msKey 63 := by
            intro q' hq' hl
            refine List.prefix_of_prefix_length_le hq' ?_ (by simp; omega)
            rw [Pair64.bits, hms]
            exact (sig_prefix_self _ (by omega)).trans (List.prefix_append _ _)
          rcases hM63 with ⟨q0, s0, g1, g2, g3, g4⟩ | ⟨g1, g2⟩
          · have hl0 : q0.length < 64 := by have := g2.length_le; simp at this; omega
            obtain ⟨v, v1, v2⟩ := match_short (h.v6.2 q0 s0 g3) hl0 k.lsKey k.lsBits
            simp only [g1, v2]
            refine .inl ⟨q0, v, rfl, ?_, (hst q0 v hl0).2 ⟨s0, g3, v1⟩, ?_⟩
            · rw [Pair64.bits, hms]
              exact (g2.trans (sig_prefix_self _ (by omega))).trans (List.prefix_append _ _)
            · intro q' v' hq' hv'
              by_cases hl : q'.length < 64
              · obtain ⟨s', s1, _⟩ := (hst q' v' hl).1 hv'
                exact g4 q' s' (h63 q' hq' hl) s1
              · obtain ⟨a1, a2⟩ := hlong q' v' hq' (by omega) hv'
                rw [f2 _ a1] at a2; cases a2
          · simp only [g1]
            refine .inr ⟨by first | rfl | trivial, fun q' hq' => ?_⟩
            cases hd : den6 t.root64 q' with
            | none => rfl
            | some v' =>
              by_cases hl : q'.length < 64
              · obtain ⟨s', s1, _⟩ := (hst q' v' hl).1 hd
                rw [g2 q' (h63 q' hq' hl)] at s1; cases s1
              · obtain ⟨a1, a2⟩ := hlong q' v' hq' (by omega) hd
                rw [f2 _ a1] at a2; cases a2
    · simp only [e1]
      refine .inr ⟨by first | rfl | trivial, fun q' hq' => ?_⟩
      unfold den6
      rw [e2 _ (hsplit q' hq').1]; rfl

theorem getByNet_bad {t : Option (Tree V)} {n : IPNet} (hn : ∀ f p, ¬ IsNet n f p) : GetByNet t (some n) = none := by
  obtain ⟨h1, h2⟩ := keys_of_not hn
  cases t with
  | none => rfl
  | some t => simp [GetByNet, h1, h2]

/-! ## Deletion -/

/-- The deletions that work: IPv4, IPv6 from 64 bits on, and stored IPv6 networks. -/
def Effective (t : Tree V) (f : Fam) (p : List Bool) : Prop := f = .v4 ∨ ¬ p.length < 64 ∨ (denT t f p).isSome = true

theorem exists_below6 {t : NTree 64 (NTree 64 V)} (h : WF6 t) {q : List Bool} {s : NTree 64 V} (hq : den t q = some s) :
    ∃ r v, den6 t (q ++ r) = some v := by
  obtain ⟨h1, h2, h3⟩ := h.2 q s hq
  have hl := wf_den_length h.1 hq
  obtain ⟨r, v, hr⟩ := h2.exists_den h1
  by_cases hl' : q.length < 64
  · have := h3 hl' r v hr
    subst this
    refine ⟨[], v, ?_⟩
    unfold den6
    rw [List.append_nil, List.take_of_length_le hl, List.drop_of_length_le hl, hq]; exact hr
  · have : q.length = 64 := by omega
    refine ⟨r, v, ?_⟩
    unfold den6
    rw [List.take_left' this, List.drop_left' this, hq]; exact hr

theorem deleteByNet_ok {t : Tree V} (h : WFT t) {n : IPNet} {f : Fam} {p : List Bool} (hn : IsNet n f p) :
    ∃ t' d, DeleteByNet (some t) (some n) = (some t', d) ∧ WFT t' ∧
      (d = false → t' = t) ∧
      (Effective t f p → (∀ g q, denT t' g q = if g = f ∧ p <+: q then none else denT t g q) ∧
        (d = true ↔ ∃ q v, p <+: q ∧ denT t f q = some v)) ∧
      (¬ Effective t f p → d = false) := by
  cases f with
  | v4 =>
    obtain ⟨k, b, h1, h2, rfl⟩ := v4Key_of_isNet hn
    obtain ⟨d1, d2, d3, d4⟩ := delete_den h.v4 k h2
    simp only [DeleteByNet, h1]
    cases hd : Delete t.root32 k b with
    | mk r ok =>
      rw [hd] at d1 d2 d3 d4
      cases ok with
      | true =>
        refine ⟨⟨r, t.root64⟩, true, rfl, ⟨d1, h.v6⟩, by simp, fun _ => ⟨fun g q => ?_, d3⟩, fun he => absurd (.inl rfl) he⟩
        cases g with
        | v4 => simp [denT, d2]
        | v6 => simp [denT]
      | false =>
        refine ⟨t, false, rfl, h, by simp, fun _ => ⟨fun g q => ?_, d3⟩, fun he => absurd (.inl rfl) he⟩
        cases g with
        | v4 =>
          have := d4 rfl
          simp only at this d2
          simp only [denT, true_and]
          rw [← d2, this]
        | v6 => simp [denT]
  | v6 =>
    have h4 := v4Key_of_v6 hn
    obtain ⟨k, h1, hk, rfl⟩ := v6Pair_of_isNet hn
    simp only [DeleteByNet, h4, h1]
    have htd := take_drop_bits hk
    have he := exactMatch_den h.v6.1 k.msKey hk.ms
    rw [he]
    -- networks contained in the argument, when the nested tree is there
    have hpre : ∀ q, ¬ k.msBits < 64 → (k.bits <+: q ↔ q.take 64 = sig k.msKey k.msBits ∧ sig k.lsKey k.lsBits <+: q.drop 64) := by
      intro q hm
      have hm' := hk.full hm
      constructor
      · intro hq
        have hl := hq.length_le
        have : k.bits.length = 64 + k.lsBits := by simp [Pair64.bits, hm']
        refine ⟨?_, by rw [← htd.2]; exact pre_drop hq 64 (by omega)⟩
        rw [← htd.1]
        exact ((pre_take hq 64).eq_of_length (by simp; omega)).symm
      · rintro ⟨e1, e2⟩
        rw [← List.take_append_drop 64 q, e1]
        exact (List.prefix_append_right_inj _).2 e2
    cases hd : den t.root64 (sig k.msKey k.msBits) with
    | none =>
      refine ⟨t, false, rfl, h, by simp, fun heff => ?_, fun _ => rfl⟩
      have hm : ¬ k.msBits < 64 := by
        intro hm
        rcases heff with he | he | he
        · cases he
        · apply he; simp [Pair64.bits, hk.zero hm]; omega
        · simp only [denT] at he
          unfold den6 at he
          rw [htd.1, hd] at he; cases he
      have hno : ∀ q, k.bits <+: q → den6 t.root64 q = none := by
        intro q hq
        unfold den6
        rw [((hpre q hm).1 hq).1, hd]; rfl
      refine ⟨fun g q => ?_, ?_⟩
      · cases g with
        | v4 => simp [denT]
        | v6 =>
          simp only [denT, true_and]
          split
          · rename_i hq; exact hno q hq
          · rfl
      · simp only [Bool.false_eq_true, false_iff]
        rintro ⟨q, v, a1, a2⟩
        simp only [denT] at a2
        rw [hno q a1] at a2; cases a2
    | some s =>
      obtain ⟨hT1, hT2, hT3⟩ := h.v6.2 _ s hd
      obtain ⟨d1, d2, d3, d4⟩ := delete_den hT2 k.lsKey hk.ls
      simp only
      by_cases hm : k.msBits < 64
      · -- short and stored: the nested tree becomes empty
        have hls := short_nil hk hm
        have hb : k.bits = sig k.msKey k.msBits := by rw [Pair64.bits, hls, List.append_nil]
        obtain ⟨r0, v0, hr0⟩ := hT2.exists_den hT1
        have hok : (Delete s k.lsKey k.lsBits).2 = true := d3.2 ⟨r0, v0, by rw [hls]; exact List.nil_prefix, hr0⟩
        have hnil : (Delete s k.lsKey k.lsBits).1 = .nil := by
          apply Classical.byContradiction
          intro hne
          obtain ⟨r, v, hr⟩ := d1.exists_den hne
          rw [d2, hls, if_pos List.nil_prefix] at hr; cases hr
        obtain ⟨D1, D2, D3, D4⟩ := delete_den h.v6.1 k.msKey hk.ms
        refine ⟨⟨t.root32, (Delete t.root64 k.msKey k.msBits).1⟩, true, ?_, ⟨h.v4, D1, fun q s' hq => ?_⟩, by simp, fun _ => ⟨fun g q => ?_, ?_⟩, ?_⟩
        · cases hdd : Delete s k.lsKey k.lsBits with
          | mk r ok =>
            rw [hdd] at hok hnil
            simp only at hok hnil
            subst hok; subst hnil; rfl
        · rw [D2] at hq
          split at hq
          · cases hq
          · exact h.v6.2 q s' hq
        · cases g with
          | v4 => simp [denT]
          | v6 =>
            simp only [denT, true_and]
            unfold den6
            rw [D2, hb]
            have e : sig k.msKey k.msBits <+: q.take 64 ↔ sig k.msKey k.msBits <+: q := by
              constructor
              · intro hp; exact hp.trans (List.take_prefix _ _)
              · intro hp; exact List.prefix_of_prefix_length_le hp (List.take_prefix _ _) (by
                  have := hp.length_le; simp at this ⊢; omega)
            by_cases hq : sig k.msKey k.msBits <+: q
            · rw [if_pos (e.2 hq), if_pos hq]; rfl
            · rw [if_neg (fun x => hq (e.1 x)), if_neg hq]
        · simp only [true_iff]
          have hr := hT3 (by simpa using hm) r0 v0 hr0
          subst hr
          refine ⟨k.bits, v0, List.prefix_rfl, ?_⟩
          simp only [denT]
          unfold den6
          rw [htd.1, hd, htd.2, hls]; exact hr0
        · intro hne
          exfalso; apply hne
          refine .inr (.inr ?_)
          have hr := hT3 (by simpa using hm) r0 v0 hr0
          subst hr
          simp only [denT]
          unfold den6
          rw [htd.1, hd, htd.2, hls]; simp [hr0]
      · have hm' := hk.full hm
        have heff : Effective t .v6 k.bits := .inr (.inl (by simp [Pair64.bits, hm']))
        -- what the nested deletion does to the whole map
        have hmap : ∀ q, (if k.bits <+: q then none else den6 t.root64 q) =
            if q.take 64 = sig k.msKey k.msBits then den (Delete s k.lsKey k.lsBits).1 (q.drop 64) else den6 t.root64 q := by
          intro q
          by_cases e1 : q.take 64 = sig k.msKey k.msBits
          · rw [if_pos e1, d2]
            by_cases e2 : sig k.lsKey k.lsBits <+: q.drop 64
            · rw [if_pos ((hpre q hm).2 ⟨e1, e2⟩), if_pos e2]
            · rw [if_neg (fun x => e2 ((hpre q hm).1 x).2), if_neg e2]
              unfold den6
              rw [e1, hd]; rfl
          · rw [if_neg e1, if_neg (fun x => e1 ((hpre q hm).1 x).1)]
        have hiff : (∃ q v, k.bits <+: q ∧ denT t .v6 q = some v) ↔ ∃ q v, sig k.lsKey k.lsBits <+: q ∧ den s q = some v := by
          constructor
          · rintro ⟨q, v, a1, a2⟩
            obtain ⟨b1, b2⟩ := (hpre q hm).1 a1
            simp only [denT] at a2
            unfold den6 at a2
            rw [b1, hd] at a2
            exact ⟨_, v, b2, a2⟩
          · rintro ⟨q, v, a1, a2⟩
            have hl : (sig k.msKey k.msBits).length = 64 := by simp [hm']
            refine ⟨sig k.msKey k.msBits ++ q, v, (List.prefix_append_right_inj _).2 a1, ?_⟩
            simp only [denT]
            unfold den6
            rw [List.take_left' hl, List.drop_left' hl, hd]; exact a2
        cases hdd : Delete s k.lsKey k.lsBits with
        | mk r ok =>
          rw [hdd] at d1 d2 d3 d4 hmap
          simp only at d1 d2 d3 d4 hmap
          cases ok with
          | false =>
            refine ⟨t, false, rfl, h, by simp, fun _ => ⟨fun g q => ?_, by rw [hiff]; exact d3⟩, fun hne => absurd heff hne⟩
            cases g with
            | v4 => simp [denT]
            | v6 =>
              simp only [denT, true_and]
              rw [hmap, d4 rfl]
              split
              · rename_i e; unfold den6; rw [e, hd]; rfl
              · rfl
          | true =>
            simp only
            by_cases hn : r.isNil = true
            · rw [if_pos hn]
              have hr : r = .nil := by cases r with
                | nil => rfl
                | node _ _ _ => simp [BTree.isNil] at hn
              subst hr
              obtain ⟨D1, D2, D3, D4⟩ := delete_den h.v6.1 k.msKey hk.ms
              refine ⟨_, true, rfl, ⟨h.v4, D1, fun q s' hq => ?_⟩, by simp, fun _ => ⟨fun g q => ?_, by rw [hiff]; exact d3⟩, fun hne => absurd heff hne⟩
              · rw [D2] at hq
                split at hq
                · cases hq
                · exact h.v6.2 q s' hq
              · cases g with
                | v4 => simp [denT]
                | v6 =>
                  simp only [denT, true_and]
                  rw [hmap]
                  show (den _ _).bind _ = _
                  rw [D2]
                  have e : sig k.msKey k.msBits <+: q.take 64 ↔ q.take 64 = sig k.msKey k.msBits := by
                    constructor
                    · intro hp
                      exact (hp.eq_of_length (by have := hp.length_le; simp [hm'] at this ⊢; omega)).symm
                    · intro e; rw [e]; exact List.prefix_rfl
                  by_cases hq : q.take 64 = sig k.msKey k.msBits
                  · rw [if_pos (e.2 hq), if_pos hq]; simp
                  · rw [if_neg (fun x => hq (e.1 x)), if_neg hq]; rfl
            · rw [if_neg hn]
              have hne : r ≠ .nil := by rintro rfl; exact hn rfl
              have ht : Typed (sig k.msKey k.msBits) r := ⟨hne, d1, fun hl => by simp [hm'] at hl⟩
              obtain ⟨j1, j2⟩ := insert6 h.v6 k.msKey hk.ms ht
              refine ⟨_, true, rfl, ⟨h.v4, j1⟩, by simp, fun _ => ⟨fun g q => ?_, by rw [hiff]; exact d3⟩, fun hne => absurd heff hne⟩
              cases g with
              | v4 => simp [denT]
              | v6 =>
                simp only [denT, true_and]
                rw [hmap, j2]

theorem deleteByNet_bad {t : Option (Tree V)} {n : IPNet} (hn : ∀ f p, ¬ IsNet n f p) : DeleteByNet t (some n) = (t, false) := by
  obtain ⟨h1, h2⟩ := keys_of_not hn
  cases t with
  | none => rfl
  | some t => simp [DeleteByNet, h1, h2]

/-! ## Listing -/

theorem key6_canon {n : ND 64 (NTree 64 V)} {m : ND 64 V} (hn : n.bits ≤ 64) (hm : m.bits ≤ 64) (h0 : n.bits < 64 → m.bits = 0) :
    IsCanonNet (key6 n m) .v6 (n.sig ++ m.sig) := by
  have := canon_of_mask (ip := unpack64 n.key ++ unpack64 m.key) (f := .v6) (by simp [Fam.len]) (n := n.bits + m.bits) (by simp only [Fam.len]; omega)
  have hc : cidrMask (n.bits + m.bits) 128 = cidrBytes 16 (n.bits + m.bits) := by
    unfold cidrMask; rw [if_pos ⟨by simp, by omega⟩]
  rw [bitsBE_append, bits_unpack64, bits_unpack64] at this
  have e : (sig n.key 64 ++ sig m.key 64).take (n.bits + m.bits) = n.sig ++ m.sig := by
    by_cases hl : n.bits < 64
    · have h0 := h0 hl
      rw [h0, Nat.add_zero, List.take_append_of_le_length (by simpa using hn), sig_take _ hn]
      simp [ND.sig, h0, sig]
    · have : n.bits = 64 := by omega
      rw [List.take_append, List.take_of_length_le (by simp; omega), length_sig]
      rw [this, Nat.add_sub_cancel_left, sig_take _ hm, ND.sig, ND.sig, this]
  rw [e] at this
  simpa [key6, hc, Fam.len] using this

theorem typed_of_mem {t : NTree 64 (NTree 64 V)} (h : WF6 t) {n : ND 64 (NTree 64 V)} (hn : n ∈ enumerate t) :
    Typed n.sig n.value ∧ den t n.sig = some n.value := by
  have : den t n.sig = some n.value := (h.1.mem_enumerate_iff _ _).2 ⟨n, hn, rfl, rfl⟩
  exact ⟨h.2 _ _ this, this⟩

/-- What one node of `root64` contributes. -/
theorem enum6_typed {t : NTree 64 (NTree 64 V)} (h : WF6 t) {n : ND 64 (NTree 64 V)} (hn : n ∈ enumerate t) :
    ∀ m ∈ enumerate n.value, IsCanonNet (key6 n m) .v6 (n.sig ++ m.sig) ∧ den6 t (n.sig ++ m.sig) = some m.value ∧ (n.bits < 64 → m.sig = []) := by
  intro m hm
  obtain ⟨⟨t1, t2, t3⟩, hd⟩ := typed_of_mem h hn
  have hb := (h.1.enumerate_prop n hn).2.1
  have hmb := (t2.enumerate_prop m hm).2.1
  have hdm : den n.value m.sig = some m.value := (t2.mem_enumerate_iff _ _).2 ⟨m, hm, rfl, rfl⟩
  have hz : n.bits < 64 → m.sig = [] := fun hl => t3 (by simpa using hl) _ _ hdm
  have hz' : n.bits < 64 → m.bits = 0 := fun hl => by have := congrArg List.length (hz hl); simpa using this
  refine ⟨key6_canon hb hmb hz', ?_, hz⟩
  unfold den6
  by_cases hl : n.bits < 64
  · rw [hz hl, List.append_nil, List.take_of_length_le (by simp; omega), List.drop_of_length_le (by simp; omega), hd]
    rw [hz hl] at hdm; exact hdm
  · have : n.sig.length = 64 := by simp; omega
    rw [List.take_left' this, List.drop_left' this, hd]; exact hdm

theorem enumerate_sound {t : Tree V} (h : WFT t) : ∀ x ∈ Enumerate (some t), ∃ f p, IsCanonNet x.1 f p ∧ denT t f p = some x.2 := by
  intro x hx
  simp only [Enumerate, Num.Enumerate, enum6, List.mem_append, List.mem_map, List.mem_flatMap] at hx
  rcases hx with ⟨n, hn, rfl⟩ | ⟨n, hn, m, hm, rfl⟩
  · have := h.v4.enumerate_prop n hn
    exact ⟨.v4, n.sig, key4_canon this.2.1, (h.v4.mem_enumerate_iff _ _).2 ⟨n, hn, rfl, rfl⟩⟩
  · obtain ⟨a1, a2, _⟩ := enum6_typed h.v6 hn m hm
    exact ⟨.v6, _, a1, a2⟩

theorem enumerate_complete {t : Tree V} (h : WFT t) {f : Fam} {p : List Bool} {v : V} (hp : denT t f p = some v) :
    ∃ x ∈ Enumerate (some t), IsCanonNet x.1 f p ∧ x.2 = v := by
  cases f with
  | v4 =>
    obtain ⟨n, hn, rfl, rfl⟩ := (h.v4.mem_enumerate_iff _ _).1 hp
    refine ⟨(key4 n, n.value), ?_, key4_canon (h.v4.enumerate_prop n hn).2.1, rfl⟩
    simp only [Enumerate, Num.Enumerate, List.mem_append, List.mem_map]
    exact .inl ⟨n, hn, rfl⟩
  | v6 =>
    simp only [denT] at hp
    unfold den6 at hp
    cases hd : den t.root64 (p.take 64) with
    | none => rw [hd] at hp; cases hp
    | some s =>
      rw [hd] at hp
      have hp' : den s (p.drop 64) = some v := hp
      obtain ⟨n, hn, hn1, hn2⟩ := (h.v6.1.mem_enumerate_iff _ _).1 hd
      obtain ⟨t1, t2, t3⟩ := h.v6.2 _ s hd
      obtain ⟨m, hm, hm1, rfl⟩ := (t2.mem_enumerate_iff _ _).1 hp'
      obtain ⟨a1, a2, _⟩ := enum6_typed h.v6 hn m (by rw [hn2]; exact hm)
      refine ⟨(key6 n m, m.value), ?_, ?_, rfl⟩
      · simp only [Enumerate, Num.Enumerate, enum6, List.mem_append, List.mem_flatMap, List.mem_map]
        exact .inr ⟨n, hn, m, by rw [hn2]; exact hm, rfl⟩
      · rw [hn1, hm1, List.take_append_drop] at a1; exact a1

theorem enumerate_sorted {t : Tree V} (h : WFT t) : (Enumerate (some t)).Pairwise fun a b => NetBefore a.1 b.1 := by
  simp only [Enumerate, Num.Enumerate]
  rw [List.pairwise_append]
  refine ⟨?_, ?_, ?_⟩
  · rw [List.pairwise_map]
    refine (List.Pairwise.and_mem.1 (enumerate_blt h.v4)).imp ?_
    rintro a b ⟨ha, hb, hab⟩
    exact canon_before (key4_canon (h.v4.enumerate_prop a ha).2.1) (key4_canon (h.v4.enumerate_prop b hb).2.1) hab
  · rw [List.pairwise_flatMap]
    constructor
    · intro n hn
      unfold enum6 Num.Enumerate
      rw [List.pairwise_map]
      have hw := (typed_of_mem h.v6 hn).1.2.1
      refine (List.Pairwise.and_mem.1 (enumerate_blt hw)).imp ?_
      rintro a b ⟨ha, hb, hab⟩
      exact canon_before (enum6_typed h.v6 hn a ha).1 (enum6_typed h.v6 hn b hb).1 (hab.append_left _)
    · refine (List.Pairwise.and_mem.1 (enumerate_blt h.v6.1)).imp ?_
      rintro a b ⟨ha, hb, hab⟩ x hx y hy
      unfold enum6 Num.Enumerate at hx hy
      obtain ⟨m, hm, rfl⟩ := List.mem_map.1 hx
      obtain ⟨m', hm', rfl⟩ := List.mem_map.1 hy
      have la := (h.v6.1.enumerate_prop a ha).2.1
      have lb := (h.v6.1.enumerate_prop b hb).2.1
      obtain ⟨r1, _, r2⟩ := enum6_typed h.v6 ha m hm
      obtain ⟨s1, _, s2⟩ := enum6_typed h.v6 hb m' hm'
      refine canon_before r1 s1 ?_
      by_cases hl : a.bits < 64
      · rw [r2 hl, List.append_nil]; exact hab.append_right _
      · exact hab.append (by simp; omega) _ _
  · intro a ha b hb
    simp only [List.mem_map] at ha
    simp only [List.mem_flatMap] at hb
    obtain ⟨n, hn, rfl⟩ := ha
    obtain ⟨m, hm, hb⟩ := hb
    unfold enum6 Num.Enumerate at hb
    obtain ⟨m', hm', rfl⟩ := List.mem_map.1 hb
    exact canon_fam (key4_canon (h.v4.enumerate_prop n hn).2.1) (enum6_typed h.v6 hm m' hm').1

end Verif.UIP
