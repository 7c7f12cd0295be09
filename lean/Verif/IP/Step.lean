import Verif.IP.Lemmas

/-! # One call of each iptree operation -/

namespace Verif.IP
open Verif Verif.Num
variable {V : Type}

theorem den6_lt {t : NTree 64 (TV V)} {q : List Bool} (h : q.length < 64) : den6 t q = userDen (den t q) := by simp [den6, h]

theorem den6_ge {t : NTree 64 (TV V)} {q : List Bool} (h : ¬ q.length < 64) : den6 t q = subDen (den t (q.take 64)) (q.drop 64) := by
  simp [den6, h]

theorem userDen_some {x : Option (TV V)} {v : V} : userDen x = some v ↔ x = some (.user v) := by
  match x with
  | none => simp [userDen]
  | some (.user u) => simp [userDen]
  | some (.sub s) => simp [userDen]

theorem den6_user {t : NTree 64 (TV V)} {q : List Bool} (hq : q.length < 64) (v : V) :
    den6 t q = some v ↔ den t q = some (.user v) := by
  rw [den6_lt hq, userDen_some]

theorem q_eq_bits {k : Pair64} (hm : k.msBits = 64) {q : List Bool} (hq : ¬ q.length < 64) :
    q = k.bits ↔ q.take 64 = sig k.msKey 64 ∧ q.drop 64 = sig k.lsKey k.lsBits := by
  obtain ⟨h1, h2⟩ := take_bits (k := k) hm
  constructor
  · rintro rfl; exact ⟨h1, h2⟩
  · rintro ⟨h3, h4⟩
    rw [← List.take_append_drop 64 q, ← List.take_append_drop 64 k.bits, h1, h2, h3, h4]

theorem wf_den_length {w : Nat} {W : Type} {t : NTree w W} (h : WF [] t) {q : List Bool} {v : W} (hq : den t q = some v) : q.length ≤ w := by
  obtain ⟨n, hn, rfl, _⟩ := (h.mem_enumerate_iff q v).1 hq
  have := (h.enumerate_prop n hn).2.1
  simpa using this

theorem subOf_some {t : NTree 64 (TV V)} (h : WF6 t) {p : List Bool} (hp : p.length = 64) :
    ∃ s, subOf (den t p) = some s ∧ WF [] s ∧ ∀ q, den s q = subDen (den t p) q := by
  cases hd : den t p with
  | none => exact ⟨.nil, rfl, trivial, fun q => rfl⟩
  | some x =>
    rcases h.2 p x hd with ⟨h1, _⟩ | ⟨_, s, rfl, _, h3⟩
    · omega
    · exact ⟨s, rfl, h3, fun q => rfl⟩

section
variable [Inhabited V]

/-- Set a user value in `root64`. -/
theorem insert6_short {t : NTree 64 (TV V)} (h : WF6 t) (k : BitVec 64) {b : Nat} (hb : b < 64) (v : V) :
    WF6 (Num.Insert t k b (.user v)) ∧ ∀ q, den6 (Num.Insert t k b (.user v)) q = if q = sig k b then some v else den6 t q := by
  obtain ⟨h1, h2⟩ := insert_den h.1 k (b := b) (by omega) (TV.user v)
  refine ⟨⟨h1, fun q x hx => ?_⟩, fun q => ?_⟩
  · rw [h2] at hx
    split at hx
    · cases hx; rename_i he; subst he
      exact .inl ⟨by simpa using hb, v, rfl⟩
    · exact h.2 q x hx
  · by_cases hq : q.length < 64
    · rw [den6_lt hq, den6_lt hq, h2]
      split <;> rfl
    · rw [den6_ge hq, den6_ge hq, h2]
      have h3 : q.take 64 ≠ sig k b := by
        intro he; have := congrArg List.length he; simp at this; omega
      have h4 : q ≠ sig k b := by
        rintro rfl; simp at hq; omega
      rw [if_neg h3, if_neg h4]

/-- Set the nested tree of a 64-bit prefix. -/
theorem insert6_sub {t : NTree 64 (TV V)} (h : WF6 t) (k : BitVec 64) {s : NTree 64 V} (hs : WF [] s) (hne : s ≠ .nil) :
    WF6 (Num.Insert t k (64 : Nat) (.sub s)) ∧
      ∀ q, den6 (Num.Insert t k (64 : Nat) (.sub s)) q = if sig k 64 <+: q then den s (q.drop 64) else den6 t q := by
  obtain ⟨h1, h2⟩ := insert_den h.1 k (b := 64) (by omega) (TV.sub s)
  refine ⟨⟨h1, fun q x hx => ?_⟩, fun q => ?_⟩
  · rw [h2] at hx
    split at hx
    · cases hx; rename_i he; subst he
      exact .inr ⟨by simp, s, rfl, hne, hs⟩
    · exact h.2 q x hx
  · by_cases hq : q.length < 64
    · have h3 : q ≠ sig k 64 := by rintro rfl; simp at hq
      have h4 : ¬ sig k 64 <+: q := by intro hp; have := hp.length_le; simp at this; omega
      rw [den6_lt hq, den6_lt hq, h2, if_neg h3, if_neg h4]
    · rw [den6_ge hq, den6_ge hq, h2]
      by_cases hp : sig k 64 <+: q
      · have : q.take 64 = sig k 64 := by
          have := List.prefix_iff_eq_take.1 hp; simpa using this.symm
        rw [if_pos this, if_pos hp]; rfl
      · have : q.take 64 ≠ sig k 64 := by
          intro he; exact hp (he ▸ List.take_prefix 64 q)
        rw [if_neg this, if_neg hp]

/-- InsertNet of a network. -/
theorem insertNet_ok {t : Option (Tree V)} (h : WFT (base t)) {n : IPNet} {f : Fam} {p : List Bool} (hn : IsNet n f p) (v : V) :
    ∃ t', InsertNet t (some n) v = some (some t') ∧ WFT t' ∧
      ∀ g q, denT t' g q = if g = f ∧ q = p then some v else denT (base t) g q := by
  cases f with
  | v4 =>
    obtain ⟨k, b, h1, h2, rfl⟩ := v4Key_of_isNet hn
    refine ⟨⟨Num.Insert (base t).root32 k b v, (base t).root64⟩, by simp [InsertNet, h1, base], ?_, ?_⟩
    · exact ⟨(insert_den h.v4 k h2 v).1, h.v6⟩
    · intro g q
      cases g with
      | v4 => simp only [denT, (insert_den h.v4 k h2 v).2, true_and]
      | v6 => simp [denT]
  | v6 =>
    have h4 := v4Key_of_v6 hn
    obtain ⟨k, h1, hk, rfl⟩ := v6Pair_of_isNet hn
    by_cases hm : k.msBits < 64
    · obtain ⟨a1, a2⟩ := insert6_short h.v6 k.msKey hm v
      have hb : k.bits = sig k.msKey k.msBits := by simp [Pair64.bits, hk.zero hm]
      refine ⟨⟨(base t).root32, Num.Insert (base t).root64 k.msKey k.msBits (.user v)⟩, by simp [InsertNet, h4, h1, hm, base], ⟨h.v4, a1⟩, ?_⟩
      intro g q
      cases g with
      | v4 => simp [denT]
      | v6 => simp only [denT, a2, hb, true_and]
    · have hm' := hk.full hm
      obtain ⟨s, s1, s2, s3⟩ := subOf_some h.v6 (p := sig k.msKey 64) (by simp)
      obtain ⟨i1, i2⟩ := insert_den s2 k.lsKey hk.ls v
      obtain ⟨a1, a2⟩ := insert6_sub h.v6 k.msKey i1 (insert_ne_nil' _ _ _ _)
      have he : ExactMatch (base t).root64 k.msKey k.msBits = den (base t).root64 (sig k.msKey 64) := by
        rw [hm']; exact exactMatch_den h.v6.1 _ (Nat.le_refl _)
      refine ⟨⟨(base t).root32, Num.Insert (base t).root64 k.msKey (64 : Nat) (.sub (Num.Insert s k.lsKey k.lsBits v))⟩, ?_, ⟨h.v4, a1⟩, ?_⟩
      · simp only [InsertNet, h4, h1, hm, if_false]
        change Option.map _ (subOf (ExactMatch (base t).root64 k.msKey k.msBits)) = _
        rw [he, s1, hm']; rfl
      · intro g q
        cases g with
        | v4 => simp [denT]
        | v6 =>
          simp only [denT, a2, true_and]
          by_cases hq : q.length < 64
          · have h5 : ¬ sig k.msKey 64 <+: q := by intro hp; have := hp.length_le; simp at this; omega
            have h6 : q ≠ k.bits := by rintro rfl; simp [Pair64.bits] at hq; omega
            rw [if_neg h5, if_neg h6]
          · simp only [q_eq_bits hm' hq]
            by_cases hp : sig k.msKey 64 <+: q
            · have ht : q.take 64 = sig k.msKey 64 := by
                have := List.prefix_iff_eq_take.1 hp; simpa using this.symm
              rw [if_pos hp, i2, s3, den6_ge hq, ht]
              simp
            · have ht : q.take 64 ≠ sig k.msKey 64 := by
                intro he; exact hp (he ▸ List.take_prefix 64 q)
              rw [if_neg hp, if_neg (by simp [ht])]

theorem insertNet_bad {t : Option (Tree V)} {n : IPNet} (hn : ∀ f p, ¬ IsNet n f p) (v : V) : InsertNet t (some n) v = some t := by
  obtain ⟨h1, h2⟩ := keys_of_not hn
  simp [InsertNet, h1, h2]

omit [Inhabited V] in
theorem typed_below {q : List Bool} {x : TV V} (h : Typed q x) : ∃ r v, (q.length < 64 → r = []) ∧
    (∀ (t : NTree 64 (TV V)), den t q = some x → den6 t (q ++ r) = some v) := by
  rcases h with ⟨h1, u, rfl⟩ | ⟨h1, s, rfl, h2, h3⟩
  · refine ⟨[], u, fun _ => rfl, fun t ht => ?_⟩
    rw [List.append_nil, den6_lt h1, ht]; rfl
  · obtain ⟨r, v, hr⟩ := h3.exists_den h2
    refine ⟨r, v, by omega, fun t ht => ?_⟩
    rw [den6_ge (by simp; omega), List.take_left' h1, List.drop_left' h1, ht]
    exact hr

omit [Inhabited V] in
theorem hasBelow6 {t : NTree 64 (TV V)} (h : WF6 t) (p : List Bool) (hp : p.length ≤ 64) :
    (∃ q x, p <+: q ∧ den t q = some x) ↔ ∃ q v, p <+: q ∧ den6 t q = some v := by
  constructor
  · rintro ⟨q, x, h1, h2⟩
    obtain ⟨r, v, _, hr⟩ := typed_below (h.2 q x h2)
    exact ⟨q ++ r, v, h1.trans (List.prefix_append _ _), hr t h2⟩
  · rintro ⟨q, v, h1, h2⟩
    by_cases hq : q.length < 64
    · exact ⟨q, _, h1, (den6_user hq v).1 h2⟩
    · rw [den6_ge hq] at h2
      cases hd : den t (q.take 64) with
      | none => simp [hd, subDen] at h2
      | some x =>
        refine ⟨q.take 64, x, ?_, hd⟩
        rw [List.prefix_iff_eq_take] at h1 ⊢
        rw [List.take_take, Nat.min_eq_left hp]; exact h1

/-- DeleteByNet of a network. -/
theorem deleteByNet_ok {t : Tree V} (h : WFT t) {n : IPNet} {f : Fam} {p : List Bool} (hn : IsNet n f p) :
    ∃ t' d, DeleteByNet (some t) (some n) = some (some t', d) ∧ WFT t' ∧
      (∀ g q, denT t' g q = if g = f ∧ p <+: q then none else denT t g q) ∧
      (d = true ↔ ∃ q v, p <+: q ∧ denT t f q = some v) ∧ (d = false → t' = t) := by
  cases f with
  | v4 =>
    obtain ⟨k, b, h1, h2, rfl⟩ := v4Key_of_isNet hn
    obtain ⟨a1, a2, a3, a4⟩ := delete_den h.v4 k h2
    simp only [DeleteByNet, h1]
    rcases hd : Delete t.root32 k b with ⟨r, d⟩
    rw [hd] at a1 a2 a3 a4
    cases d with
    | true =>
      refine ⟨_, _, rfl, ⟨a1, h.v6⟩, ?_, a3, by simp⟩
      intro g q
      cases g with
      | v4 => simp only [denT, a2, true_and]
      | v6 => simp [denT]
    | false =>
      have e := a4 rfl
      simp only at e; subst e
      refine ⟨_, _, rfl, h, ?_, a3, by simp⟩
      intro g q
      cases g with
      | v4 => simp only [denT, true_and]; exact a2 q
      | v6 => simp [denT]
  | v6 =>
    have h4 := v4Key_of_v6 hn
    obtain ⟨k, h1, hk, rfl⟩ := v6Pair_of_isNet hn
    simp only [DeleteByNet, h4, h1]
    by_cases hm : k.msBits < 64
    · have hb : k.bits = sig k.msKey k.msBits := by simp [Pair64.bits, hk.zero hm]
      obtain ⟨a1, a2, a3, a4⟩ := delete_den h.v6.1 k.msKey hk.ms
      have d6 : ∀ (r : NTree 64 (TV V)), (∀ q, den r q = if sig k.msKey k.msBits <+: q then none else den t.root64 q) →
          ∀ q, den6 r q = if sig k.msKey k.msBits <+: q then none else den6 t.root64 q := by
        intro r hr q
        by_cases hq : q.length < 64
        · rw [den6_lt hq, den6_lt hq, hr]; split <;> rfl
        · rw [den6_ge hq, den6_ge hq, hr]
          have : sig k.msKey k.msBits <+: q.take 64 ↔ sig k.msKey k.msBits <+: q := by
            rw [List.prefix_iff_eq_take, List.prefix_iff_eq_take, List.take_take, Nat.min_eq_left (by simpa using hk.ms)]
          by_cases hp : sig k.msKey k.msBits <+: q
          · rw [if_pos (this.2 hp), if_pos hp]; rfl
          · rw [if_neg (fun x => hp (this.1 x)), if_neg hp]
      have a3' := a3.trans (hasBelow6 h.v6 (sig k.msKey k.msBits) (by simpa using hk.ms))
      simp only [hm, if_true]
      rcases hd : Delete t.root64 k.msKey k.msBits with ⟨r, d⟩
      rw [hd] at a1 a2 a3' a4
      cases d with
      | true =>
        refine ⟨_, _, rfl, ⟨h.v4, a1, ?_⟩, ?_, by rw [hb]; exact a3', by simp⟩
        · intro q v hq
          rw [a2] at hq
          split at hq
          · cases hq
          · exact h.v6.2 q v hq
        · intro g q
          cases g with
          | v4 => simp [denT]
          | v6 => simp only [denT, hb, true_and]; exact d6 r a2 q
      | false =>
        have e := a4 rfl
        simp only at e; subst e
        refine ⟨_, _, rfl, h, ?_, by rw [hb]; exact a3', by simp⟩
        intro g q
        cases g with
        | v4 => simp [denT]
        | v6 => simp only [denT, hb, true_and]; exact d6 _ a2 q
    · have hm' := hk.full hm
      have he : ExactMatch t.root64 k.msKey k.msBits = den t.root64 (sig k.msKey 64) := by
        rw [hm']; exact exactMatch_den h.v6.1 _ (Nat.le_refl _)
      simp only [hm, if_false, he]
      -- prefixes below the split
      have hpre : ∀ q, k.bits <+: q ↔ (sig k.msKey 64 <+: q ∧ sig k.lsKey k.lsBits <+: q.drop 64) := by
        intro q
        unfold Pair64.bits
        rw [hm']
        constructor
        · rintro ⟨r, rfl⟩
          refine ⟨by rw [List.append_assoc]; exact List.prefix_append _ _, ?_⟩
          rw [List.append_assoc, List.drop_left' (by simp)]; exact List.prefix_append _ _
        · rintro ⟨⟨r, rfl⟩, h2⟩
          rw [List.drop_left' (by simp)] at h2
          exact (List.prefix_append_right_inj _).2 h2
      have hden6 : ∀ q, sig k.msKey 64 <+: q → den6 t.root64 q = subDen (den t.root64 (sig k.msKey 64)) (q.drop 64) := by
        intro q hp
        have hq : ¬ q.length < 64 := by have := hp.length_le; simp at this; omega
        have ht : q.take 64 = sig k.msKey 64 := by
          have := List.prefix_iff_eq_take.1 hp; simpa using this.symm
        rw [den6_ge hq, ht]
      have hpa : ∀ r : List Bool, sig k.msKey 64 <+: sig k.msKey 64 ++ r ∧ (sig k.msKey 64 ++ r).drop 64 = r :=
        fun r => ⟨List.prefix_append _ _, List.drop_left' (by simp)⟩
      cases hd : den t.root64 (sig k.msKey 64) with
      | none =>
        have hnone : ∀ q, k.bits <+: q → den6 t.root64 q = none := by
          intro q hp
          rw [hden6 q ((hpre q).1 hp).1, hd]; rfl
        refine ⟨t, false, rfl, h, ?_, ?_, by simp⟩
        · intro g q
          cases g with
          | v4 => simp [denT]
          | v6 =>
            simp only [denT, true_and]
            split
            · rename_i hp; exact hnone q hp
            · rfl
        · simp only [Bool.false_eq_true, false_iff]
          rintro ⟨q, v, hp, hv⟩
          simp only [denT] at hv
          rw [hnone q hp] at hv; cases hv
      | some x =>
        rcases h.v6.2 _ x hd with ⟨hl, _⟩ | ⟨_, s, rfl, hs1, hs2⟩
        · simp at hl
        · obtain ⟨a1, a2, a3, a4⟩ := delete_den hs2 k.lsKey hk.ls
          have a3' : (Delete s k.lsKey k.lsBits).2 = true ↔ ∃ q v, k.bits <+: q ∧ denT t .v6 q = some v := by
            rw [a3]
            constructor
            · rintro ⟨q, v, h1, h2⟩
              refine ⟨sig k.msKey 64 ++ q, v, (hpre _).2 ⟨(hpa q).1, by rw [(hpa q).2]; exact h1⟩, ?_⟩
              simp only [denT]
              rw [hden6 _ (hpa q).1, hd, (hpa q).2]; exact h2
            · rintro ⟨q, v, h1, h2⟩
              simp only [denT] at h2
              obtain ⟨p1, p2⟩ := (hpre q).1 h1
              rw [hden6 q p1, hd] at h2
              exact ⟨_, v, p2, h2⟩
          simp only [subOf, Option.map_some]
          rcases hdel : Delete s k.lsKey k.lsBits with ⟨r, d⟩
          rw [hdel] at a1 a2 a3' a4
          simp only at a1 a2 a3' a4
          cases d with
          | true =>
            simp only
            by_cases hr : r.isNil = true
            · have hrn : r = .nil := by cases r with | nil => rfl | node => simp [BTree.isNil] at hr
              rw [if_pos hr]
              obtain ⟨b1, b2, b3, b4⟩ := delete_den h.v6.1 k.msKey (b := 64) (Nat.le_refl _)
              rw [hm']
              refine ⟨_, _, rfl, ⟨h.v4, b1, ?_⟩, ?_, a3', by simp⟩
              · intro q v hq
                rw [b2] at hq
                split at hq
                · cases hq
                · exact h.v6.2 q v hq
              · intro g q
                cases g with
                | v4 => simp [denT]
                | v6 =>
                  simp only [denT, true_and]
                  by_cases hq : q.length < 64
                  · have hx : ¬ sig k.msKey 64 <+: q := by intro hp; have := hp.length_le; simp at this; omega
                    have hx' : ¬ k.bits <+: q := fun hp => hx ((hpre q).1 hp).1
                    rw [den6_lt hq, den6_lt hq, b2, if_neg hx, if_neg hx']
                  · by_cases hp : sig k.msKey 64 <+: q
                    · have ht : q.take 64 = sig k.msKey 64 := by
                        have := List.prefix_iff_eq_take.1 hp; simpa using this.symm
                      rw [den6_ge hq, ht, b2, if_pos (List.prefix_refl _)]
                      have hz := a2 (q.drop 64)
                      rw [hrn, den_nil] at hz
                      split
                      · rfl
                      · rename_i hnp
                        rw [hden6 q hp, hd]
                        rw [if_neg (fun hc => hnp ((hpre q).2 ⟨hp, hc⟩))] at hz
                        exact hz
                    · have hx : ¬ sig k.msKey 64 <+: q.take 64 := fun hc => hp (hc.trans (List.take_prefix _ _))
                      have hx' : ¬ k.bits <+: q := fun hc => hp ((hpre q).1 hc).1
                      rw [den6_ge hq, den6_ge hq, b2, if_neg hx, if_neg hx']
            · have hrn : r ≠ .nil := by rintro rfl; exact hr rfl
              rw [if_neg hr]
              obtain ⟨b1, b2⟩ := insert6_sub h.v6 k.msKey a1 hrn
              rw [hm']
              refine ⟨_, _, rfl, ⟨h.v4, b1⟩, ?_, a3', by simp⟩
              intro g q
              cases g with
              | v4 => simp [denT]
              | v6 =>
                simp only [denT, true_and]
                rw [b2]
                by_cases hp : sig k.msKey 64 <+: q
                · rw [if_pos hp, a2, hden6 q hp, hd]
                  by_cases hc : sig k.lsKey k.lsBits <+: q.drop 64
                  · rw [if_pos hc, if_pos ((hpre q).2 ⟨hp, hc⟩)]
                  · rw [if_neg hc, if_neg (fun hx => hc ((hpre q).1 hx).2)]; rfl
                · rw [if_neg hp, if_neg (fun hx => hp ((hpre q).1 hx).1)]
          | false =>
            have e := a4 rfl
            subst e
            refine ⟨t, false, rfl, h, ?_, a3', by simp⟩
            intro g q
            cases g with
            | v4 => simp [denT]
            | v6 =>
              simp only [denT, true_and]
              split
              · rename_i hp
                obtain ⟨p1, p2⟩ := (hpre q).1 hp
                rw [hden6 q p1, hd]
                have := a2 (q.drop 64)
                rw [if_pos p2] at this; exact this
              · rfl

theorem deleteByNet_bad {t : Option (Tree V)} {n : IPNet} (hn : ∀ f p, ¬ IsNet n f p) : DeleteByNet t (some n) = some (t, false) := by
  obtain ⟨h1, h2⟩ := keys_of_not hn
  cases t with
  | none => rfl
  | some t => simp [DeleteByNet, h1, h2]

end

theorem getByNet_bad {t : Option (Tree V)} {n : IPNet} (hn : ∀ f p, ¬ IsNet n f p) : GetByNet t (some n) = none := by
  obtain ⟨h1, h2⟩ := keys_of_not hn
  cases t with
  | none => rfl
  | some t => simp [GetByNet, h1, h2]

/-- GetByNet of a network: longest match over the full length. -/
theorem getByNet_ok {t : Tree V} (h : WFT t) {n : IPNet} {f : Fam} {p : List Bool} (hn : IsNet n f p) :
    ∃ r, GetByNet (some t) (some n) = r.map .user ∧ (denT t f).IsLongestMatch p r := by
  cases f with
  | v4 =>
    obtain ⟨k, b, h1, h2, rfl⟩ := v4Key_of_isNet hn
    refine ⟨Match t.root32 k b, by simp [GetByNet, h1], ?_⟩
    have := match_longest h.v4 k b
    rwa [clampSpec_le h2] at this
  | v6 =>
    have h4 := v4Key_of_v6 hn
    obtain ⟨k, h1, hk, rfl⟩ := v6Pair_of_isNet hn
    simp only [GetByNet, h4, h1]
    have hM := match_longest h.v6.1 k.msKey k.msBits
    rw [clampSpec_le hk.ms] at hM
    by_cases hm : k.msBits < 64
    · have hb : k.bits = sig k.msKey k.msBits := by simp [Pair64.bits, hk.zero hm]
      rw [hb]
      simp only [hm, if_true]
      have hlen : ∀ p, p <+: sig k.msKey k.msBits → p.length < 64 := by
        intro p hp; have := hp.length_le; simp at this; omega
      rcases hM with ⟨q, x, e1, e2, e3, e4⟩ | ⟨e1, e2⟩
      · rcases h.v6.2 q x e3 with ⟨_, u, rfl⟩ | ⟨hl, _⟩
        · refine ⟨some u, by rw [e1]; rfl, .inl ⟨q, u, rfl, e2, (den6_user (hlen q e2) u).2 e3, ?_⟩⟩
          intro q' v' hq' hv'
          exact e4 q' _ hq' ((den6_user (hlen q' hq') v').1 hv')
        · have := hlen q e2; omega
      · refine ⟨none, by rw [e1]; rfl, .inr ⟨rfl, fun q hq => ?_⟩⟩
        simp only [denT]
        rw [den6_lt (hlen q hq), e2 q hq]; rfl
    · have hm' := hk.full hm
      simp only [hm, if_false]
      rw [hm'] at hM ⊢
      have hbits : k.bits = sig k.msKey 64 ++ sig k.lsKey k.lsBits := by simp [Pair64.bits, hm']
      -- prefixes of the query
      have hshort : ∀ p, p.length < 64 → p <+: k.bits → p <+: sig k.msKey 64 := by
        intro p hl hp
        rw [hbits] at hp
        exact List.prefix_of_prefix_length_le hp (List.prefix_append _ _) (by simp; omega)
      have hlong : ∀ p, ¬ p.length < 64 → p <+: k.bits → p.take 64 = sig k.msKey 64 ∧ p.drop 64 <+: sig k.lsKey k.lsBits := by
        intro p hl hp
        have h5 : sig k.msKey 64 <+: p := by
          rw [hbits] at hp
          exact List.prefix_of_prefix_length_le (List.prefix_append _ _) hp (by simp; omega)
        obtain ⟨r, rfl⟩ := h5
        rw [List.take_left' (by simp), List.drop_left' (by simp)]
        rw [hbits] at hp
        exact ⟨rfl, (List.prefix_append_right_inj _).1 hp⟩
      -- the answer among the short prefixes
      have hM63 := match_longest h.v6.1 k.msKey (63 : Int)
      have hcl : clampSpec 64 (63 : Int) = 63 := by decide
      rw [hcl] at hM63
      have hshort63 : ∀ p, p.length < 64 → p <+: k.bits → p <+: sig k.msKey 63 := by
        intro p hl hp
        exact List.prefix_of_prefix_length_le (hshort p hl hp) (sig_prefix_self _ (by omega)) (by simp; omega)
      have hlen63 : ∀ p, p <+: sig k.msKey 63 → p.length < 64 ∧ p <+: k.bits := by
        intro p hp
        refine ⟨by have := hp.length_le; simp at this; omega, ?_⟩
        rw [hbits]
        exact (hp.trans (sig_prefix_self _ (by omega))).trans (List.prefix_append _ _)
      have short : (∀ q, ¬ q.length < 64 → q <+: k.bits → den6 t.root64 q = none) →
          ∃ r, Match t.root64 k.msKey 63 = r.map .user ∧ (den6 t.root64).IsLongestMatch k.bits r := by
        intro hno
        rcases hM63 with ⟨q, x, e1, e2, e3, e4⟩ | ⟨e1, e2⟩
        · obtain ⟨l1, l2⟩ := hlen63 q e2
          rcases h.v6.2 q x e3 with ⟨_, u, rfl⟩ | ⟨hl, _⟩
          · refine ⟨some u, by rw [e1]; rfl, .inl ⟨q, u, rfl, l2, (den6_user l1 u).2 e3, ?_⟩⟩
            intro q' v' hq' hv'
            by_cases hl : q'.length < 64
            · exact e4 q' _ (hshort63 q' hl hq') ((den6_user hl v').1 hv')
            · rw [hno q' hl hq'] at hv'; cases hv'
          · omega
        · refine ⟨none, by rw [e1]; rfl, .inr ⟨rfl, fun q hq => ?_⟩⟩
          by_cases hl : q.length < 64
          · rw [den6_lt hl, e2 q (hshort63 q hl hq)]; rfl
          · exact hno q hl hq
      rcases hM with ⟨q, x, e1, e2, e3, e4⟩ | ⟨e1, e2⟩
      · rw [e1]
        simp only
        rcases h.v6.2 q x e3 with ⟨hl, u, rfl⟩ | ⟨hl, s, rfl, s1, s2⟩
        · -- the best entry is a short user value; nothing is stored at the full 64 bits
          have hno : den t.root64 (sig k.msKey 64) = none := by
            cases hd : den t.root64 (sig k.msKey 64) with
            | none => rfl
            | some y => have := e4 _ y (List.prefix_refl _) hd; simp at this; omega
          refine ⟨some u, rfl, .inl ⟨q, u, rfl, ?_, (den6_user hl u).2 e3, ?_⟩⟩
          · rw [hbits]; exact e2.trans (List.prefix_append _ _)
          · intro q' v' hq' hv'
            by_cases hl' : q'.length < 64
            · exact e4 q' _ (hshort q' hl' hq') ((den6_user hl' v').1 hv')
            · simp only [denT] at hv'
              rw [den6_ge hl', (hlong q' hl' hq').1, hno] at hv'; cases hv'
        · have hq64 : q = sig k.msKey 64 := e2.eq_of_length (by simp [hl])
          subst hq64
          have hS := match_longest s2 k.lsKey k.lsBits
          rw [clampSpec_le hk.ls] at hS
          have h6 : ∀ r, den6 t.root64 (sig k.msKey 64 ++ r) = den s r := by
            intro r
            rw [den6_ge (by simp), List.take_left' (by simp), List.drop_left' (by simp), e3]; rfl
          have hform : ∀ q', ¬ q'.length < 64 → q' <+: k.bits → q' = sig k.msKey 64 ++ q'.drop 64 := by
            intro q' h1 h2
            conv => lhs; rw [← List.take_append_drop 64 q', (hlong q' h1 h2).1]
          rcases hS with ⟨r, v, f1, f2, f3, f4⟩ | ⟨f1, f2⟩
          · simp only [f1]
            refine ⟨some v, rfl, .inl ⟨sig k.msKey 64 ++ r, v, rfl, ?_, by simp only [denT]; rw [h6]; exact f3, ?_⟩⟩
            · rw [hbits]; exact (List.prefix_append_right_inj _).2 f2
            · intro q' v' hq' hv'
              by_cases hl' : q'.length < 64
              · simp; omega
              · simp only [denT] at hv'
                rw [hform q' hl' hq', h6] at hv'
                have := f4 _ v' (hlong q' hl' hq').2 hv'
                have hle : q'.length = 64 + (q'.drop 64).length := by simp; omega
                simp only [List.length_append, length_sig]
                omega
          · simp only [f1]
            exact short fun q' h1 h2 => by
              rw [hform q' h1 h2, h6]; exact f2 _ (hlong q' h1 h2).2
      · rw [e1]
        refine ⟨none, rfl, .inr ⟨rfl, fun q hq => ?_⟩⟩
        simp only [denT]
        by_cases hl : q.length < 64
        · rw [den6_lt hl, e2 q (hshort q hl hq)]; rfl
        · rw [den6_ge hl, (hlong q hl hq).1, e2 _ (List.prefix_refl _)]; rfl

end Verif.IP
