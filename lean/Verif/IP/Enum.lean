import Verif.IP.Step

/-! # What Enumerate lists -/

namespace Verif.IP
open Verif Verif.Num
variable {V : Type}

/-- Lexicographic order of bit strings, a proper prefix first. -/
def BLt (p q : List Bool) : Prop := (p <+: q ∧ p ≠ q) ∨ ∃ c, c ++ [false] <+: p ∧ c ++ [true] <+: q

theorem BLt.append {p q : List Bool} (h : BLt p q) (hl : q.length ≤ p.length) (r s : List Bool) : BLt (p ++ r) (q ++ s) := by
  rcases h with ⟨h1, h2⟩ | ⟨c, h1, h2⟩
  · exact absurd (h1.eq_of_length_le hl) h2
  · exact .inr ⟨c, h1.trans (List.prefix_append _ _), h2.trans (List.prefix_append _ _)⟩

theorem BLt.append_right {p q : List Bool} (h : BLt p q) (s : List Bool) : BLt p (q ++ s) := by
  rcases h with ⟨h1, h2⟩ | ⟨c, h1, h2⟩
  · refine .inl ⟨h1.trans (List.prefix_append _ _), ?_⟩
    rintro rfl
    have := h1.length_le
    have hs : s = [] := by
      apply List.eq_nil_of_length_eq_zero; simp at this; omega
    subst hs; simp at h2
  · exact .inr ⟨c, h1, h2.trans (List.prefix_append _ _)⟩

theorem BLt.append_left {p q : List Bool} (h : BLt p q) (r : List Bool) : BLt (r ++ p) (r ++ q) := by
  rcases h with ⟨h1, h2⟩ | ⟨c, h1, h2⟩
  · exact .inl ⟨(List.prefix_append_right_inj _).2 h1, by simpa using h2⟩
  · refine .inr ⟨r ++ c, ?_, ?_⟩
    · rw [List.append_assoc]; exact (List.prefix_append_right_inj _).2 h1
    · rw [List.append_assoc]; exact (List.prefix_append_right_inj _).2 h2

theorem enumerate_blt {w : Nat} {W : Type} {P : List Bool} {t : NTree w W} (h : WF P t) :
    (enumerate t).Pairwise fun a b => BLt a.sig b.sig := by
  induction t generalizing P with
  | nil => simp [enumerate]
  | node n l r ihl ihr =>
    obtain ⟨hb, hp, _, hl, hr⟩ := h
    unfold enumerate
    rw [List.append_assoc, List.pairwise_append, List.pairwise_append]
    have pl := hl.enumerate_prop
    have pr := hr.enumerate_prop
    have par : ∀ (b : Bool) (m : ND w W), n.sig ++ [b] <+: m.sig → BLt n.sig m.sig := by
      intro b m hm
      refine .inl ⟨(List.prefix_append _ _).trans hm, fun he => ?_⟩
      have := hm.length_le
      rw [← he] at this; simp at this; omega
    refine ⟨by split <;> simp, ⟨ihl hl, ihr hr, ?_⟩, ?_⟩
    · intro a ha b hb'
      exact .inr ⟨n.sig, (pl a ha).1, (pr b hb').1⟩
    · intro a ha b hb'
      split at ha
      · simp at ha; subst ha
        simp only [List.mem_append] at hb'
        rcases hb' with hb' | hb'
        · exact par _ _ (pl b hb').1
        · exact par _ _ (pr b hb').1
      · simp at ha

/-- Range of the padded value of an extension. -/
theorem val_range {W : Nat} {c p : List Bool} (hc : c <+: p) (hp : p.length ≤ W) :
    val c * 2 ^ (W - c.length) ≤ val p * 2 ^ (W - p.length) ∧ val p * 2 ^ (W - p.length) < (val c + 1) * 2 ^ (W - c.length) := by
  obtain ⟨r, rfl⟩ := hc
  have h := val_append_bounds c r
  have e : 2 ^ (W - c.length) = 2 ^ r.length * 2 ^ (W - (c ++ r).length) := by
    rw [← Nat.pow_add]; congr 1; simp at hp ⊢; omega
  rw [e, ← Nat.mul_assoc, ← Nat.mul_assoc]
  exact ⟨Nat.mul_le_mul_right _ h.1, Nat.mul_lt_mul_of_pos_right h.2 (Nat.two_pow_pos _)⟩

theorem blt_val {W : Nat} {p q : List Bool} (h : BLt p q) (hp : p.length ≤ W) (hq : q.length ≤ W) :
    val p * 2 ^ (W - p.length) < val q * 2 ^ (W - q.length) ∨
    (val p * 2 ^ (W - p.length) = val q * 2 ^ (W - q.length) ∧ p.length < q.length) := by
  rcases h with ⟨h1, h2⟩ | ⟨c, h1, h2⟩
  · have := (val_range h1 hq).1
    have hlt : p.length < q.length := by
      have := h1.length_le
      rcases Nat.lt_or_ge p.length q.length with h | h
      · exact h
      · exact absurd (h1.eq_of_length_le h) h2
    omega
  · left
    have a := (val_range h1 hp).2
    have b := (val_range h2 hq).1
    rw [val_snoc] at a b
    simp at a b
    omega

theorem val_append (p q : List Bool) : val (p ++ q) = val p * 2 ^ q.length + val q := by
  induction q generalizing p with
  | nil => simp [val]
  | cons b q ih =>
    have h := ih (p ++ [b])
    have h2 := ih [b]
    rw [val_snoc, List.append_assoc] at h
    rw [show [b] ++ q = b :: q from rfl] at h h2
    rw [h, h2]
    have e : val [b] = b.toNat := by simp [val]
    rw [e, List.length_cons, Nat.pow_succ, Nat.add_mul, Nat.mul_comm (2 ^ q.length) 2, ← Nat.mul_assoc, Nat.mul_comm (val p) 2]
    omega

theorem val_replicate_false (n : Nat) : val (List.replicate n false) = 0 := by
  induction n with
  | zero => rfl
  | succ n ih =>
    rw [List.replicate_succ', val_snoc, ih]; rfl

theorem beNat_eq (bs : Bytes) : beNat bs = val (bitsBE bs) := by
  have h8 : ∀ b : UInt8, val (sig b.toBitVec 8) = b.toNat := by
    intro b
    rw [val_sig _ (Nat.le_refl _)]; simp
  have gen : ∀ (bs : Bytes) (p : List Bool), bs.foldl (fun a b => 256 * a + b.toNat) (val p) = val (p ++ bitsBE bs) := by
    intro bs
    induction bs with
    | nil => simp
    | cons b bs ih =>
      intro p
      rw [List.foldl_cons, bitsBE_cons, ← List.append_assoc, ← ih]
      congr 1
      rw [val_append, h8]; simp; omega
  have := gen bs []
  simpa [beNat, val] using this

theorem IsNet.ones {n : IPNet} {f : Fam} {p : List Bool} (h : IsNet n f p) : onesOf n.mask = p.length := by
  rw [onesOf, h.2.2.2.1, List.count_append]; simp [List.count_replicate]

theorem canon_before {a b : IPNet} {f : Fam} {p q : List Bool} (ha : IsCanonNet a f p) (hb : IsCanonNet b f q) (h : BLt p q) :
    NetBefore a b := by
  have hp := ha.1.2.2.1
  have hq := hb.1.2.2.1
  right
  refine ⟨by rw [ha.1.1, hb.1.1], ?_⟩
  rw [beNat_eq, beNat_eq, ha.2, hb.2, val_append, val_append, val_replicate_false, val_replicate_false, IsNet.ones ha.1, IsNet.ones hb.1]
  simp only [List.length_replicate, Nat.add_zero]
  exact blt_val h hp hq

theorem canon_fam {a b : IPNet} {p q : List Bool} (ha : IsCanonNet a .v4 p) (hb : IsCanonNet b .v6 q) : NetBefore a b := by
  left; rw [ha.1.1, hb.1.1]; decide

/-! ## Keys -/

theorem canon_of_mask {ip : Bytes} {f : Fam} (hl : ip.length = f.len) {n : Nat} (hn : n ≤ 8 * f.len) :
    IsCanonNet ⟨maskIP ip (cidrBytes f.len n), cidrBytes f.len n⟩ f ((bitsBE ip).take n) := by
  have hlen : ((bitsBE ip).take n).length = n := by simp [hl]; omega
  have hb : bitsBE (maskIP ip (cidrBytes f.len n)) = (bitsBE ip).take n ++ List.replicate (8 * f.len - n) false := by
    have := bitsBE_maskIP_cidr ip n (by rw [hl]; exact hn)
    rwa [hl] at this
  refine ⟨⟨by simp [hl], by simp, by omega, ?_, ?_⟩, ?_⟩
  · rw [hlen]; exact bitsBE_cidrBytes _ _ hn
  · rw [hb]; exact List.prefix_append _ _
  · rw [hlen]; exact hb

theorem key4_canon {n : ND 32 V} (h : n.bits ≤ 32) : IsCanonNet (key4 n) .v4 n.sig := by
  have := canon_of_mask (ip := unpack32 n.key) (f := .v4) (by simp [Fam.len]) (n := n.bits) (by simpa [Fam.len] using h)
  rw [bits_unpack32, sig_take _ h] at this
  simpa [key4, cidrMask, h, Fam.len] using this

theorem key6s_canon {ms : BitVec 64} {n : ND 64 V} (h : n.bits ≤ 64) : IsCanonNet (key6s ms n) .v6 (sig ms 64 ++ n.sig) := by
  have := canon_of_mask (ip := unpack64 ms ++ unpack64 n.key) (f := .v6) (by simp [Fam.len]) (n := 64 + n.bits) (by simp only [Fam.len]; omega)
  rw [bitsBE_append, bits_unpack64, bits_unpack64, List.take_append, List.take_of_length_le (by simp)] at this
  rw [length_sig, Nat.add_sub_cancel_left, sig_take _ h] at this
  have hc : cidrMask (64 + n.bits) 128 = cidrBytes 16 (64 + n.bits) := by
    unfold cidrMask; rw [if_pos ⟨by simp, by omega⟩]
  simpa [key6s, hc, Fam.len] using this

theorem key6_canon {n : ND 64 V} (h : n.bits ≤ 64) : IsCanonNet (key6 n) .v6 n.sig := by
  have := canon_of_mask (ip := unpack64 n.key ++ List.replicate 8 0) (f := .v6) (by simp [Fam.len]) (n := n.bits) (by simp only [Fam.len]; omega)
  rw [bitsBE_append, bits_unpack64, List.take_append_of_le_length (by simpa using h), sig_take _ h] at this
  have hc : cidrMask n.bits 128 = cidrBytes 16 n.bits := by
    unfold cidrMask; rw [if_pos ⟨by simp, by omega⟩]
  simpa [key6, hc, Fam.len] using this

theorem enum6_typed {n : ND 64 (TV V)} (hb : n.bits ≤ 64) (ht : Typed n.sig n.value) :
    ∀ x ∈ enum6 n, ∃ r, IsCanonNet x.1 .v6 (n.sig ++ r) ∧ (n.bits < 64 → r = []) ∧
      (∀ (t : NTree 64 (TV V)), den t n.sig = some n.value → den6 t (n.sig ++ r) = some x.2) := by
  intro x hx
  unfold enum6 at hx
  rcases ht with ⟨h1, u, hu⟩ | ⟨h1, s, hs, h2, h3⟩
  · rw [hu] at hx ⊢
    simp only [List.mem_singleton] at hx
    subst hx
    refine ⟨[], by simpa using key6_canon hb, fun _ => rfl, fun t ht => ?_⟩
    rw [List.append_nil, den6_lt h1, ht]; rfl
  · rw [hs] at hx ⊢
    simp only [List.mem_map] at hx
    obtain ⟨m, hm, rfl⟩ := hx
    have hm2 := (h3.enumerate_prop m hm).2.1
    have hn : n.bits = 64 := by simpa using h1
    refine ⟨m.sig, ?_, by omega, fun t ht => ?_⟩
    · have := key6s_canon (ms := n.key) (n := m) hm2
      rw [ND.sig, hn]; exact this
    · rw [den6_ge (by simp; omega), List.take_left' h1, List.drop_left' h1, ht]
      exact (h3.mem_enumerate_iff _ _).2 ⟨m, hm, rfl, rfl⟩

theorem typed_of_mem {t : NTree 64 (TV V)} (h : WF6 t) {n : ND 64 (TV V)} (hn : n ∈ enumerate t) :
    Typed n.sig n.value ∧ den t n.sig = some n.value := by
  have : den t n.sig = some n.value := (h.1.mem_enumerate_iff _ _).2 ⟨n, hn, rfl, rfl⟩
  exact ⟨h.2 _ _ this, this⟩

theorem enumerate_sound {t : Tree V} (h : WFT t) : ∀ x ∈ Enumerate (some t), ∃ f p, IsCanonNet x.1 f p ∧ denT t f p = some x.2 := by
  intro x hx
  simp only [Enumerate, List.mem_append, List.mem_map, List.mem_flatMap] at hx
  rcases hx with ⟨n, hn, rfl⟩ | ⟨n, hn, hx⟩
  · have := h.v4.enumerate_prop n hn
    exact ⟨.v4, n.sig, key4_canon this.2.1, (h.v4.mem_enumerate_iff _ _).2 ⟨n, hn, rfl, rfl⟩⟩
  · have := h.v6.1.enumerate_prop n hn
    obtain ⟨t1, t2⟩ := typed_of_mem h.v6 hn
    obtain ⟨r, h1, _, h3⟩ := enum6_typed this.2.1 t1 x hx
    exact ⟨.v6, _, h1, h3 _ t2⟩

theorem enumerate_complete {t : Tree V} (h : WFT t) {f : Fam} {p : List Bool} {v : V} (hp : denT t f p = some v) :
    ∃ x ∈ Enumerate (some t), IsCanonNet x.1 f p ∧ x.2 = v := by
  cases f with
  | v4 =>
    obtain ⟨n, hn, rfl, rfl⟩ := (h.v4.mem_enumerate_iff _ _).1 hp
    refine ⟨(key4 n, n.value), ?_, key4_canon (h.v4.enumerate_prop n hn).2.1, rfl⟩
    simp only [Enumerate, List.mem_append, List.mem_map]
    exact .inl ⟨n, hn, rfl⟩
  | v6 =>
    simp only [denT] at hp
    have mem : ∀ (n : ND 64 (TV V)) x, n ∈ enumerate t.root64 → x ∈ enum6 n → x ∈ Enumerate (some t) := by
      intro n x hn hx
      simp only [Enumerate, List.mem_append, List.mem_flatMap]
      exact .inr ⟨n, hn, hx⟩
    by_cases hl : p.length < 64
    · obtain ⟨n, hn, rfl, hv⟩ := (h.v6.1.mem_enumerate_iff _ _).1 ((den6_user hl v).1 hp)
      refine ⟨(key6 n, v), mem n _ hn (by simp [enum6, hv]), key6_canon (h.v6.1.enumerate_prop n hn).2.1, rfl⟩
    · rw [den6_ge hl] at hp
      cases hd : den t.root64 (p.take 64) with
      | none => rw [hd] at hp; cases hp
      | some x =>
        rw [hd] at hp
        rcases h.v6.2 _ x hd with ⟨h1, _⟩ | ⟨_, s, rfl, s1, s2⟩
        · simp at h1; omega
        · obtain ⟨n, hn, hn1, hn2⟩ := (h.v6.1.mem_enumerate_iff _ _).1 hd
          obtain ⟨m, hm, hm1, rfl⟩ := (s2.mem_enumerate_iff _ _).1 (show den s (p.drop 64) = some v from hp)
          refine ⟨(key6s n.key m, m.value), mem n _ hn (by simp only [enum6, hn2, List.mem_map]; exact ⟨m, hm, rfl⟩), ?_, rfl⟩
          have hb : n.bits = 64 := by
            have := congrArg List.length hn1
            simp at this; omega
          have := key6s_canon (ms := n.key) (n := m) (s2.enumerate_prop m hm).2.1
          rw [ND.sig, hb] at hn1
          rw [hn1, hm1, List.take_append_drop] at this
          exact this

theorem enumerate_sorted {t : Tree V} (h : WFT t) : (Enumerate (some t)).Pairwise fun a b => NetBefore a.1 b.1 := by
  unfold Enumerate
  simp only
  rw [List.pairwise_append]
  refine ⟨?_, ?_, ?_⟩
  · rw [List.pairwise_map]
    refine (List.Pairwise.and_mem.1 (enumerate_blt h.v4)).imp ?_
    rintro a b ⟨ha, hb, hab⟩
    exact canon_before (key4_canon (h.v4.enumerate_prop a ha).2.1) (key4_canon (h.v4.enumerate_prop b hb).2.1) hab
  · rw [List.pairwise_flatMap]
    constructor
    · intro n hn
      have hb := (h.v6.1.enumerate_prop n hn).2.1
      unfold enum6
      rcases (typed_of_mem h.v6 hn).1 with ⟨_, u, hu⟩ | ⟨_, s, hs, _, h3⟩
      · rw [hu]; simp
      · rw [hs]
        simp only
        rw [List.pairwise_map]
        refine (List.Pairwise.and_mem.1 (enumerate_blt h3)).imp ?_
        rintro a b ⟨ha, hb, hab⟩
        exact canon_before (key6s_canon (h3.enumerate_prop a ha).2.1) (key6s_canon (h3.enumerate_prop b hb).2.1) (hab.append_left _)
    · refine (List.Pairwise.and_mem.1 (enumerate_blt h.v6.1)).imp ?_
      rintro a b ⟨ha, hb, hab⟩ x hx y hy
      have la := (h.v6.1.enumerate_prop a ha).2.1
      have lb := (h.v6.1.enumerate_prop b hb).2.1
      obtain ⟨r, r1, r2, _⟩ := enum6_typed la (typed_of_mem h.v6 ha).1 x hx
      obtain ⟨s, s1, s2, _⟩ := enum6_typed lb (typed_of_mem h.v6 hb).1 y hy
      refine canon_before r1 s1 ?_
      by_cases hl : a.bits < 64
      · rw [r2 hl, List.append_nil]; exact hab.append_right _
      · exact hab.append (by simp; omega) _ _
  · intro a ha b hb
    simp only [List.mem_map] at ha
    simp only [List.mem_flatMap] at hb
    obtain ⟨n, hn, rfl⟩ := ha
    obtain ⟨m, hm, hb⟩ := hb
    obtain ⟨r, r1, _, _⟩ := enum6_typed (h.v6.1.enumerate_prop m hm).2.1 (typed_of_mem h.v6 hm).1 b hb
    exact canon_fam (key4_canon (h.v4.enumerate_prop n hn).2.1) r1

end Verif.IP
