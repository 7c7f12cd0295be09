import Verif.IP.Pack
import Verif.Num.History

/-! # Networks and keys; the maps an iptree stands for -/

namespace Verif.IP
open Verif Verif.Num
variable {V : Type}

theorem replicate_tf_inj {a b n : Nat}
    (h : List.replicate a true ++ List.replicate (n - a) false = List.replicate b true ++ List.replicate (n - b) false) : a = b := by
  have := congrArg (List.count true) h
  simpa [List.count_append, List.count_replicate] using this

theorem IsNet.unique {n : IPNet} {f g : Fam} {p q : List Bool} (h : IsNet n f p) (h' : IsNet n g q) : f = g ∧ p = q := by
  obtain ⟨h1, h2, h3, h4, h5⟩ := h
  obtain ⟨g1, g2, g3, g4, g5⟩ := h'
  have hfg : f = g := by
    cases f <;> cases g <;> simp [Fam.len] at h1 g1 <;> first | rfl | omega
  subst hfg
  rw [h4] at g4
  have hl := replicate_tf_inj g4
  refine ⟨rfl, ?_⟩
  rw [List.prefix_iff_eq_take.1 h5, List.prefix_iff_eq_take.1 g5, hl]

theorem maskSize_of_bits {m : Bytes} {n : Nat} (hn : n ≤ 8 * m.length)
    (h : bitsBE m = List.replicate n true ++ List.replicate (8 * m.length - n) false) : maskSize m = (n, 8 * m.length) := by
  have := (simpleMaskLength_iff m n).2 ⟨hn, h⟩
  simp [maskSize, this]

theorem bits_of_maskSize {m : Bytes} {k : Nat} (hk : k ≠ 0) (h : (maskSize m).2 = 8 * k) :
    m.length = k ∧ (maskSize m).1 ≤ 8 * k ∧
      bitsBE m = List.replicate (maskSize m).1 true ++ List.replicate (8 * k - (maskSize m).1) false := by
  unfold maskSize at h ⊢
  cases hs : simpleMaskLength m with
  | none => simp [hs] at h; omega
  | some n =>
    simp only [hs] at h ⊢
    obtain ⟨h1, h2⟩ := (simpleMaskLength_iff m n).1 hs
    have : m.length = k := by omega
    subst this
    exact ⟨rfl, h1, h2⟩

/-! ## IPv4 keys -/

theorem v4Key_some {n : IPNet} {k : BitVec 32} {b : Nat} (h : v4Key n = some (k, b)) : b ≤ 32 ∧ IsNet n .v4 (sig k b) := by
  unfold v4Key at h
  split at h
  · cases h
  · rename_i h1
    split at h
    · cases h
    · rename_i h2
      simp at h1 h2 h
      obtain ⟨rfl, rfl⟩ := h
      obtain ⟨h3, h4, h5⟩ := bits_of_maskSize (k := 4) (by omega) h2
      refine ⟨by omega, h1, h3, by simpa [Fam.len] using h4, by simpa [Fam.len] using h5, ?_⟩
      rw [← sig_pack32 _ h1]
      exact sig_prefix_self _ (by omega)

theorem v4Key_of_isNet {n : IPNet} {p : List Bool} (h : IsNet n .v4 p) : ∃ k b, v4Key n = some (k, b) ∧ b ≤ 32 ∧ sig k b = p := by
  have hx : ∃ x, v4Key n = some x := by
    obtain ⟨h1, h2, h3, h4, h5⟩ := h
    have hm : maskSize n.mask = (p.length, 32) := by
      have := maskSize_of_bits (m := n.mask) (n := p.length) (by rw [h2]; exact h3) (by rw [h2]; exact h4)
      rw [h2] at this; exact this
    unfold v4Key
    simp only [Fam.len] at h1
    simp [h1, hm]
  obtain ⟨⟨k, b⟩, hk⟩ := hx
  obtain ⟨hb, hn⟩ := v4Key_some hk
  exact ⟨k, b, hk, hb, (IsNet.unique hn h).2⟩

/-! ## IPv6 keys -/

/-- Significant bits of a split key. -/
def Pair64.bits (k : Pair64) : List Bool := sig k.msKey k.msBits ++ sig k.lsKey k.lsBits

/-- The two halves are in range and the second is empty unless the first is full. -/
structure Pair64.Ok (k : Pair64) : Prop where
  ms : k.msBits ≤ 64
  ls : k.lsBits ≤ 64
  zero : k.msBits < 64 → k.lsBits = 0

theorem bitsBE_split16 {ip : Bytes} (h : ip.length = 16) : bitsBE ip = sig (pack64 ip) 64 ++ sig (pack64 (ip.drop 8)) 64 := by
  rw [sig_pack64 (ip.drop 8) (by simp [h])]
  have e : ip = ip.take 8 ++ ip.drop 8 := (List.take_append_drop 8 ip).symm
  have : pack64 ip = pack64 (ip.take 8) := by
    conv => lhs; rw [e]
    exact pack64_append _ _ (by simp [h])
  rw [this, sig_pack64 _ (by simp [h]), ← bitsBE_append, ← e]

theorem v6Pair_some {n : IPNet} {k : Pair64} (h : v6Pair n = some k) : k.Ok ∧ IsNet n .v6 k.bits := by
  unfold v6Pair at h
  split at h
  · cases h
  · rename_i h1
    split at h
    · cases h
    · rename_i h2
      simp only [ne_eq, Classical.not_not] at h1 h2
      simp only [Option.some.injEq] at h
      obtain ⟨h3, h4, h5⟩ := bits_of_maskSize (k := 16) (by omega) h2
      have hsplit := bitsBE_split16 h1
      generalize (maskSize n.mask).1 = ones at h h4 h5
      subst h
      by_cases hgt : ones > 64
      · simp only [hgt, if_true]
        refine ⟨⟨by simp, by simp only; omega, by simp⟩, h1, h3, ?_, ?_, ?_⟩
        · simp [Pair64.bits, Fam.len]; omega
        · simp only [Pair64.bits, List.length_append, length_sig, Fam.len]
          rw [h5]; congr 2 <;> omega
        · rw [hsplit]
          unfold Pair64.bits
          simp only
          exact (List.prefix_append_right_inj _).2 (sig_prefix_self _ (by omega))
      · simp only [hgt, if_false]
        refine ⟨⟨by simp only; omega, by simp, by simp⟩, h1, h3, ?_, ?_, ?_⟩
        · simp [Pair64.bits, Fam.len]; omega
        · simp only [Pair64.bits, List.length_append, length_sig, Fam.len]
          rw [h5]; congr 2
        · rw [hsplit]
          unfold Pair64.bits
          simp only [sig_zero, List.append_nil]
          exact (sig_prefix_self _ (by omega)).trans (List.prefix_append _ _)

theorem v6Pair_of_isNet {n : IPNet} {p : List Bool} (h : IsNet n .v6 p) : ∃ k, v6Pair n = some k ∧ k.Ok ∧ k.bits = p := by
  have hx : ∃ x, v6Pair n = some x := by
    obtain ⟨h1, h2, h3, h4, h5⟩ := h
    have hm : maskSize n.mask = (p.length, 128) := by
      have := maskSize_of_bits (m := n.mask) (n := p.length) (by rw [h2]; exact h3) (by rw [h2]; exact h4)
      rw [h2] at this; exact this
    unfold v6Pair
    simp only [Fam.len] at h1
    simp [h1, hm]
  obtain ⟨k, hk⟩ := hx
  obtain ⟨hb, hn⟩ := v6Pair_some hk
  exact ⟨k, hk, hb, (IsNet.unique hn h).2⟩

theorem v4Key_of_v6 {n : IPNet} {p : List Bool} (h : IsNet n .v6 p) : v4Key n = none := by
  cases hk : v4Key n with
  | none => rfl
  | some x =>
    have := (IsNet.unique (v4Key_some (k := x.1) (b := x.2) hk).2 h).1
    cases this

theorem keys_of_not {n : IPNet} (h : ∀ f p, ¬ IsNet n f p) : v4Key n = none ∧ v6Pair n = none := by
  constructor
  · cases hk : v4Key n with
    | none => rfl
    | some x => exact absurd (v4Key_some (k := x.1) (b := x.2) hk).2 (h _ _)
  · cases hk : v6Pair n with
    | none => rfl
    | some x => exact absurd (v6Pair_some hk).2 (h _ _)

/-! ## Single addresses -/

theorem newIPNet_of_addr {ip : Bytes} {f : Fam} {p : List Bool} (h : IsAddr ip f p) :
    ∃ n, newIPNetFromIP ip = some n ∧ IsNet n f p := by
  have full : ∀ (ip : Bytes) (f : Fam), ip.length = f.len → IsNet ⟨ip, cidrBytes f.len (8 * f.len)⟩ f (bitsBE ip) := by
    intro ip f hl
    have hlen : (bitsBE ip).length = 8 * f.len := by simp [hl]
    refine ⟨hl, by simp, by simp [hl], ?_, by simp⟩
    rw [bitsBE_cidrBytes _ _ (Nat.le_refl _), hlen]
  cases h with
  | v4 hl =>
    refine ⟨⟨ip, cidrBytes 4 32⟩, ?_, full ip .v4 hl⟩
    simp [newIPNetFromIP, to4, hl, cidrMask]
  | @mapped tl hl =>
    refine ⟨⟨tl, cidrBytes 4 32⟩, ?_, full tl .v4 hl⟩
    have : to4 (v4in6 ++ tl) = some tl := by
      unfold to4
      rw [if_neg (by simp [v4in6, hl]), if_pos (by simp [v4in6, hl])]
      simp [v4in6]
    simp [newIPNetFromIP, this, cidrMask]
  | v6 hl hn =>
    refine ⟨⟨ip, cidrBytes 16 128⟩, ?_, full ip .v6 hl⟩
    have : to4 ip = none := by
      unfold to4
      rw [if_neg (by omega), if_neg]
      rintro ⟨_, h1, h2, h3⟩
      apply hn
      refine ⟨ip.drop 12, ?_⟩
      match ip, hl with
      | [a0, a1, a2, a3, a4, a5, a6, a7, a8, a9, a10, a11, a12, a13, a14, a15], _ =>
        simp at h1 h2 h3
        simp [v4in6, h1, h2, h3]
    simp [newIPNetFromIP, this, to16, hl, cidrMask]

theorem newIPNet_none {ip : Bytes} (h : ∀ f p, ¬ IsAddr ip f p) : newIPNetFromIP ip = none := by
  have h4 : ip.length ≠ 4 := fun hl => h _ _ (.v4 hl)
  have h16 : ip.length ≠ 16 := by
    intro hl
    by_cases hp : v4in6 <+: ip
    · obtain ⟨tl, rfl⟩ := hp
      exact h _ _ (.mapped (tl := tl) (by simp [v4in6] at hl; omega))
    · exact h _ _ (.v6 hl hp)
  simp [newIPNetFromIP, to4, to16, h4, h16]

/-! ## The map of the IPv6 tree -/

/-- The value of a short network. -/
def userDen : Option (TV V) → Option V
  | some (.user v) => some v
  | _ => none

/-- The nested map under a full 64-bit prefix. -/
def subDen (x : Option (TV V)) : PMap V := fun q =>
  match x with
  | some (.sub s) => den s q
  | _ => none

/-- Networks stored in `root64`, over the full 128 bits. -/
def den6 (t : NTree 64 (TV V)) : PMap V := fun q =>
  if q.length < 64 then userDen (den t q) else subDen (den t (q.take 64)) (q.drop 64)

/-- Values below 64 bits are user values, values at 64 bits are non-empty nested trees. -/
def Typed (q : List Bool) (v : TV V) : Prop :=
  (q.length < 64 ∧ ∃ u, v = .user u) ∨ (q.length = 64 ∧ ∃ s, v = .sub s ∧ s ≠ .nil ∧ WF [] s)

/-- Invariant of `root64`. -/
def WF6 (t : NTree 64 (TV V)) : Prop := WF [] t ∧ ∀ q v, den t q = some v → Typed q v

/-- Invariant of trees. -/
structure WFT (t : Tree V) : Prop where
  v4 : WF [] t.root32
  v6 : WF6 t.root64

/-- The networks a tree stores. -/
def denT (t : Tree V) : Fam → PMap V
  | .v4 => den t.root32
  | .v6 => den6 t.root64

/-- The tree a nil pointer stands for. -/
def base (t : Option (Tree V)) : Tree V := t.getD ⟨.nil, .nil⟩

@[simp] theorem base_none : base (none : Option (Tree V)) = ⟨.nil, .nil⟩ := rfl
@[simp] theorem base_some (t : Tree V) : base (some t) = t := rfl

theorem wft_new : WFT (⟨.nil, .nil⟩ : Tree V) := ⟨trivial, trivial, by intro q v h; cases h⟩

theorem denT_new (f : Fam) (q : List Bool) : denT (⟨.nil, .nil⟩ : Tree V) f q = none := by
  cases f <;> simp [denT, den6, userDen, subDen]

theorem Pair64.Ok.full {k : Pair64} (h : k.Ok) (hm : ¬ k.msBits < 64) : k.msBits = 64 := by have := h.ms; omega

theorem take_bits {k : Pair64} (hm : k.msBits = 64) : k.bits.take 64 = sig k.msKey 64 ∧ k.bits.drop 64 = sig k.lsKey k.lsBits := by
  unfold Pair64.bits
  rw [hm]
  exact ⟨List.take_left' (by simp), List.drop_left' (by simp)⟩

theorem clampSpec_le {w b : Nat} (h : b ≤ w) : clampSpec w (b : Int) = b := by
  unfold clampSpec
  rw [if_neg (by omega), if_neg (by omega)]; simp

theorem exactMatch_den {w : Nat} {W : Type} [LawfulKeySize w] {t : NTree w W} (h : WF [] t) (k : BitVec w) {b : Nat} (hb : b ≤ w) :
    ExactMatch t k b = den t (sig k b) := by
  rw [exactMatch_eq_den h, clampSpec_le hb]

theorem insert_den {w : Nat} {W : Type} [LawfulKeySize w] [Inhabited W] {t : NTree w W} (h : WF [] t) (k : BitVec w) {b : Nat} (hb : b ≤ w)
    (v : W) : WF [] (Insert t k b v) ∧ ∀ q, den (Insert t k b v) q = if q = sig k b then some v else den t q := by
  have := insert_spec h (c := { key := k, bits := clamp w b, leaf := true, value := v }) (clamp_le b) rfl (List.nil_prefix)
  refine ⟨this.1, fun q => ?_⟩
  unfold Num.Insert
  rw [this.2]
  simp only [PMap.insert, ND.sig, clamp_eq, clampSpec_le hb]

theorem delete_den {w : Nat} {W : Type} [LawfulKeySize w] {t : NTree w W} (h : WF [] t) (k : BitVec w) {b : Nat} (hb : b ≤ w) :
    WF [] (Delete t k b).1 ∧ (∀ q, den (Delete t k b).1 q = if sig k b <+: q then none else den t q) ∧
    ((Delete t k b).2 = true ↔ ∃ q v, sig k b <+: q ∧ den t q = some v) ∧ ((Delete t k b).2 = false → (Delete t k b).1 = t) := by
  have := del_spec h k (b := clamp w b) (clamp_le b)
  obtain ⟨h1, h2, h3, h4⟩ := this
  refine ⟨h1, fun q => ?_, ?_, h4⟩
  · unfold Delete
    rw [h2]
    simp only [PMap.delete, clamp_eq, clampSpec_le hb, List.isPrefixOf_iff_prefix]
  · unfold Delete
    rw [h3, clamp_eq, clampSpec_le hb]; rfl

theorem insert_ne_nil' {w : Nat} {W : Type} [LawfulKeySize w] [Inhabited W] (t : NTree w W) (k : BitVec w) (b : Int) (v : W) :
    Insert t k b v ≠ .nil := insert_ne_nil _ _

end Verif.IP
