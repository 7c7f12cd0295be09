import Verif.Dot.Text
import Verif.Dot.TextLemmas

/-!
# strconv.Quote

`%q` of a string is `strconv.Quote` of the Go standard library.  The table of printable characters (`strconv.IsPrint`) is a
parameter.  The model follows the library's published source (`appendQuotedWith`, `appendEscapedRune`,
`utf8.DecodeRuneInString`); /repo has no copy of it, so there are no lines to cite.
-/

namespace Verif.Dot
open Verif.Graphviz

/-- A continuation byte of UTF-8. -/
def cont (b : UInt8) : Bool := 0x80 ≤ b.toNat && b.toNat ≤ 0xBF

/-- `utf8.DecodeRuneInString`: rune and width; a byte that begins no rune is (0xFFFD, 1). -/
def decodeRune : Bytes → Nat × Nat
  | [] => (0xFFFD, 0)
  | b0 :: s =>
    if b0.toNat < 0x80 then (b0.toNat, 1)
    else if 0xC2 ≤ b0.toNat ∧ b0.toNat ≤ 0xDF then
      match s with
      | b1 :: _ => if cont b1 then ((b0.toNat - 0xC0) * 64 + (b1.toNat - 0x80), 2) else (0xFFFD, 1)
      | _ => (0xFFFD, 1)
    else if 0xE0 ≤ b0.toNat ∧ b0.toNat ≤ 0xEF then
      match s with
      | b1 :: b2 :: _ =>
        if cont b1 && cont b2 && (b0.toNat != 0xE0 || 0xA0 ≤ b1.toNat) && (b0.toNat != 0xED || b1.toNat ≤ 0x9F) then
          ((b0.toNat - 0xE0) * 4096 + (b1.toNat - 0x80) * 64 + (b2.toNat - 0x80), 3)
        else (0xFFFD, 1)
      | _ => (0xFFFD, 1)
    else if 0xF0 ≤ b0.toNat ∧ b0.toNat ≤ 0xF4 then
      match s with
      | b1 :: b2 :: b3 :: _ =>
        if cont b1 && cont b2 && cont b3 && (b0.toNat != 0xF0 || 0x90 ≤ b1.toNat) && (b0.toNat != 0xF4 || b1.toNat ≤ 0x8F) then
          ((b0.toNat - 0xF0) * 262144 + (b1.toNat - 0x80) * 4096 + (b2.toNat - 0x80) * 64 + (b3.toNat - 0x80), 4)
        else (0xFFFD, 1)
      | _ => (0xFFFD, 1)
    else (0xFFFD, 1)

/-- The character behind the backslash in the short escapes `\a \b \f \n \r \t \v`. -/
def shortEsc : Nat → Option UInt8
  | 7 => some 97
  | 8 => some 98
  | 12 => some 102
  | 10 => some 110
  | 13 => some 114
  | 9 => some 116
  | 11 => some 118
  | _ => none

/-- `appendEscapedRune` with the quote `"`; `raw` are the bytes of the rune (`utf8.AppendRune` gives them back).  Decoded runes are always
valid, so the case of an invalid rune does not occur. -/
def escapeRune (isPrint : Nat → Bool) (r : Nat) (raw : Bytes) : Bytes :=
  if r = 34 ∨ r = 92 then [92, UInt8.ofNat r]
  else if isPrint r then raw
  else
    match shortEsc r with
    | some c => [92, c]
    | none =>
      if r < 32 ∨ r = 127 then [92, 120] ++ hex 2 r
      else if r < 0x10000 then [92, 117] ++ hex 4 r
      else [92, 85] ++ hex 8 r

/-- The body of the loop of `appendQuotedWith`: what is written for the first rune. -/
def quotePiece (isPrint : Nat → Bool) (s : Bytes) : Bytes :=
  let (r, width) := decodeRune s
  if width = 1 ∧ r = 0xFFFD then [92, 120] ++ hex 2 (s.headD 0).toNat
  else escapeRune isPrint r (s.take width)

/-- The loop of `appendQuotedWith`; at most one iteration per byte. -/
def quoteLoop (isPrint : Nat → Bool) : Nat → Bytes → Bytes
  | 0, _ => []
  | fuel + 1, s => if s.isEmpty then [] else quotePiece isPrint s ++ quoteLoop isPrint fuel (s.drop (decodeRune s).2)

/-- `strconv.Quote`. -/
def strconvQuote (isPrint : Nat → Bool) (s : Bytes) : Bytes := [34] ++ quoteLoop isPrint s.length s ++ [34]

/-! ## Decoding -/

/-- What a successful decoding says about the bytes. -/
inductive Valid : Bytes → Nat → Nat → Prop
  | one {b0 s} : b0.toNat < 0x80 → Valid (b0 :: s) b0.toNat 1
  | two {b0 b1 : UInt8} {s} : 0xC2 ≤ b0.toNat → b0.toNat ≤ 0xDF → 0x80 ≤ b1.toNat → b1.toNat ≤ 0xBF →
      Valid (b0 :: b1 :: s) ((b0.toNat - 0xC0) * 64 + (b1.toNat - 0x80)) 2
  | three {b0 b1 b2 : UInt8} {s} : 0xE0 ≤ b0.toNat → b0.toNat ≤ 0xEF → 0x80 ≤ b1.toNat → b1.toNat ≤ 0xBF → 0x80 ≤ b2.toNat → b2.toNat ≤ 0xBF →
      (b0.toNat = 0xE0 → 0xA0 ≤ b1.toNat) →
      Valid (b0 :: b1 :: b2 :: s) ((b0.toNat - 0xE0) * 4096 + (b1.toNat - 0x80) * 64 + (b2.toNat - 0x80)) 3
  | four {b0 b1 b2 b3 : UInt8} {s} : 0xF0 ≤ b0.toNat → b0.toNat ≤ 0xF4 → 0x80 ≤ b1.toNat → b1.toNat ≤ 0xBF → 0x80 ≤ b2.toNat → b2.toNat ≤ 0xBF →
      0x80 ≤ b3.toNat → b3.toNat ≤ 0xBF → (b0.toNat = 0xF0 → 0x90 ≤ b1.toNat) → (b0.toNat = 0xF4 → b1.toNat ≤ 0x8F) →
      Valid (b0 :: b1 :: b2 :: b3 :: s) ((b0.toNat - 0xF0) * 262144 + (b1.toNat - 0x80) * 4096 + (b2.toNat - 0x80) * 64 + (b3.toNat - 0x80)) 4

theorem decode_cases (b : UInt8) (s : Bytes) :
    (decodeRune (b :: s) = (0xFFFD, 1) ∧ 0x80 ≤ b.toNat) ∨
    (Valid (b :: s) (decodeRune (b :: s)).1 (decodeRune (b :: s)).2 ∧ ¬ ((decodeRune (b :: s)).2 = 1 ∧ (decodeRune (b :: s)).1 = 0xFFFD)) := by
  simp only [decodeRune]
  split
  · rename_i h; refine .inr ⟨.one h, ?_⟩; simp; omega
  · split
    · rename_i h
      split
      · rename_i b1 _
        by_cases hc : cont b1 = true
        · simp only [hc, if_true]
          simp only [cont, Bool.and_eq_true, decide_eq_true_eq] at hc
          exact .inr ⟨.two h.1 h.2 hc.1 hc.2, by simp⟩
        · simp only [hc]; exact .inl ⟨rfl, by omega⟩
      · exact .inl ⟨rfl, by omega⟩
    · split
      · rename_i h
        split
        · rename_i b1 b2 _
          split
          · rename_i hc
            simp only [cont, Bool.and_eq_true, Bool.or_eq_true, bne_iff_ne, decide_eq_true_eq] at hc
            exact .inr ⟨.three h.1 h.2 (by omega) (by omega) (by omega) (by omega) (by omega), by simp⟩
          · exact .inl ⟨rfl, by omega⟩
        · exact .inl ⟨rfl, by omega⟩
      · split
        · rename_i h
          split
          · rename_i b1 b2 b3 _
            split
            · rename_i hc
              simp only [cont, Bool.and_eq_true, Bool.or_eq_true, bne_iff_ne, decide_eq_true_eq] at hc
              exact .inr ⟨.four h.1 h.2 (by omega) (by omega) (by omega) (by omega) (by omega) (by omega) (by omega) (by omega), by simp⟩
            · exact .inl ⟨rfl, by omega⟩
          · exact .inl ⟨rfl, by omega⟩
        · exact .inl ⟨rfl, by omega⟩

theorem uint8_ext {a b : UInt8} (h : a.toNat = b.toNat) : a = b := UInt8.toNat_inj.1 h

/-- A rune has one spelling. -/
theorem Valid.spelling {s s' : Bytes} {r w w' : Nat} (h : Valid s r w) (h' : Valid s' r w') : s.take w = s'.take w' := by
  generalize hr : r = r' at h'
  cases h with
  | one a =>
    cases h' with
    | one b => simp; exact uint8_ext hr
    | two | three | four => omega
  | two a1 a2 a3 a4 =>
    cases h' with
    | two b1 b2 b3 b4 => simp; exact ⟨uint8_ext (by omega), uint8_ext (by omega)⟩
    | one | three | four => omega
  | three a1 a2 a3 a4 a5 a6 a7 =>
    cases h' with
    | three b1 b2 b3 b4 b5 b6 b7 => simp; exact ⟨uint8_ext (by omega), uint8_ext (by omega), uint8_ext (by omega)⟩
    | one | two | four => omega
  | four a1 a2 a3 a4 a5 a6 a7 a8 a9 a10 =>
    cases h' with
    | four b1 b2 b3 b4 b5 b6 b7 b8 b9 b10 =>
      simp; exact ⟨uint8_ext (by omega), uint8_ext (by omega), uint8_ext (by omega), uint8_ext (by omega)⟩
    | one | two | three => omega

/-- The first byte says how many there are. -/
theorem Valid.width {s s' : Bytes} {r r' w w' : Nat} (h : Valid s r w) (h' : Valid s' r' w') (he : s.head? = s'.head?) : w = w' := by
  cases h <;> cases h' <;> simp at he <;> subst he <;> first | rfl | omega

theorem Valid.facts {s : Bytes} {r w : Nat} (h : Valid s r w) : 1 ≤ w ∧ w ≤ s.length ∧ r < 0x110000 ∧
    (r < 0x80 → w = 1 ∧ ∃ b t, s = b :: t ∧ b.toNat = r) ∧ (0x80 ≤ r → ∀ c ∈ s.take w, 0x80 ≤ c.toNat) := by
  cases h with
  | one a => refine ⟨by omega, by simp, by omega, fun _ => ⟨rfl, _, _, rfl, rfl⟩, fun h => by omega⟩
  | two => refine ⟨by omega, by simp, by omega, fun h => by omega, fun h => by simp; omega⟩
  | three => refine ⟨by omega, by simp, by omega, fun h => by omega, fun h => by simp; omega⟩
  | four => refine ⟨by omega, by simp, by omega, fun h => by omega, fun h => by simp; omega⟩

/-! ## Pieces -/

/-- The rune behind a short escape. -/
def back : UInt8 → Option Nat
  | 34 => some 34
  | 92 => some 92
  | 97 => some 7
  | 98 => some 8
  | 102 => some 12
  | 110 => some 10
  | 114 => some 13
  | 116 => some 9
  | 118 => some 11
  | _ => none

theorem shortEsc_back {r : Nat} {c : UInt8} (h : shortEsc r = some c) : back c = some r ∧ c ≠ 120 ∧ c ≠ 117 ∧ c ≠ 85 ∧ c ≠ 10 := by
  unfold shortEsc at h
  split at h <;> simp at h <;> subst h <;> decide

/-- What is written for the first rune, and how much of the text it stands for. -/
inductive Piece (s : Bytes) (w : Nat) (p : Bytes) : Prop
  | raw {r} : Valid s r w → r ≠ 34 → r ≠ 92 → r ≠ 10 → p = s.take w → Piece s w p
  | short {r} {c : UInt8} : Valid s r w → back c = some r → c ≠ 120 → c ≠ 117 → c ≠ 85 → c ≠ 10 → p = [92, c] → Piece s w p
  | x {b t} : s = b :: t → w = 1 → p = 92 :: 120 :: hex 2 b.toNat → Piece s w p
  | u {r} : Valid s r w → r < 0x10000 → p = 92 :: 117 :: hex 4 r → Piece s w p
  | U {r} : Valid s r w → p = 92 :: 85 :: hex 8 r → Piece s w p

theorem piece {isPrint : Nat → Bool} (hp : isPrint 10 = false) (b : UInt8) (t : Bytes) :
    Piece (b :: t) (decodeRune (b :: t)).2 (quotePiece isPrint (b :: t)) := by
  rcases decode_cases b t with ⟨h, _⟩ | ⟨hv, hn⟩
  · exact .x rfl (by rw [h]) (by simp [quotePiece, h])
  · unfold quotePiece
    generalize decodeRune (b :: t) = d at hv hn ⊢
    obtain ⟨r, w⟩ := d
    simp only at hv hn ⊢
    rw [if_neg hn]
    unfold escapeRune
    by_cases h1 : r = 34 ∨ r = 92
    · rw [if_pos h1]
      rcases h1 with rfl | rfl
      · exact .short (r := 34) (c := 34) hv rfl (by decide) (by decide) (by decide) (by decide) rfl
      · exact .short (r := 92) (c := 92) hv rfl (by decide) (by decide) (by decide) (by decide) rfl
    · rw [if_neg h1]
      by_cases h2 : isPrint r = true
      · rw [if_pos h2]
        exact .raw hv (fun h => h1 (.inl h)) (fun h => h1 (.inr h)) (by rintro rfl; rw [hp] at h2; cases h2) rfl
      · rw [if_neg h2]
        cases h3 : shortEsc r with
        | some c =>
          obtain ⟨e1, e2, e3, e4, e5⟩ := shortEsc_back h3
          exact .short hv e1 e2 e3 e4 e5 rfl
        | none =>
          simp only
          by_cases h4 : r < 32 ∨ r = 127
          · rw [if_pos h4]
            obtain ⟨hw, b', t', e, e'⟩ := hv.facts.2.2.2.1 (by omega)
            exact .x e hw (by rw [e']; rfl)
          · rw [if_neg h4]
            by_cases h5 : r < 0x10000
            · rw [if_pos h5]; exact .u hv h5 rfl
            · rw [if_neg h5]; exact .U hv rfl

theorem Piece.escaped {s p : Bytes} {w : Nat} (h : Piece s w p) : Escaped p := by
  cases h with
  | raw hv h1 h2 h3 hp =>
    subst hp
    refine escaped_of_plain fun c hc => ?_
    rename_i r
    by_cases hr : 0x80 ≤ r
    · have := hv.facts.2.2.2.2 hr c hc
      refine ⟨?_, ?_, ?_⟩ <;> (rintro rfl; exact absurd this (by decide))
    · obtain ⟨hw, b, t, e, e'⟩ := hv.facts.2.2.2.1 (by omega)
      subst hw e
      simp at hc
      subst hc
      refine ⟨?_, ?_, ?_⟩ <;> (rintro rfl; simp at e'; omega)
  | short _ _ _ _ _ h hp => subst hp; exact .esc h .nil
  | x _ _ hp => subst hp; exact .esc (by decide) (hex_escaped _ _)
  | u _ _ hp => subst hp; exact .esc (by decide) (hex_escaped _ _)
  | U _ hp => subst hp; exact .esc (by decide) (hex_escaped _ _)

/-- The length of the first piece of a written text. -/
def plen : Bytes → Nat
  | [] => 0
  | c0 :: o =>
    if c0 = 92 then (if o.headD 0 = 120 then 4 else if o.headD 0 = 117 then 6 else if o.headD 0 = 85 then 10 else 2)
    else if c0.toNat < 0x80 then 1 else if c0.toNat ≤ 0xDF then 2 else if c0.toNat ≤ 0xEF then 3 else 4

theorem Piece.plen {s p : Bytes} {w : Nat} (h : Piece s w p) (o : Bytes) : plen (p ++ o) = p.length := by
  cases h with
  | raw hv h1 h2 h3 hp =>
    subst hp
    cases hv with
    | one a =>
      rename_i b0 t
      have hb : b0 ≠ 92 := by rintro rfl; exact h2 rfl
      simp [Dot.plen, hb, a]
    | two a1 a2 a3 a4 =>
      rename_i b0 b1 t
      have hb : b0 ≠ 92 := by rintro rfl; simp at a1
      have : ¬ b0.toNat < 0x80 := by omega
      simp [Dot.plen, hb, this, a2]
    | three a1 a2 a3 a4 a5 a6 a7 =>
      rename_i b0 b1 b2 t
      have hb : b0 ≠ 92 := by rintro rfl; simp at a1
      have : ¬ b0.toNat < 0x80 := by omega
      have h' : ¬ b0.toNat ≤ 0xDF := by omega
      simp [Dot.plen, hb, this, h', a2]
    | four a1 a2 a3 a4 a5 a6 a7 a8 a9 a10 =>
      rename_i b0 b1 b2 b3 t
      have hb : b0 ≠ 92 := by rintro rfl; simp at a1
      have : ¬ b0.toNat < 0x80 := by omega
      have h' : ¬ b0.toNat ≤ 0xDF := by omega
      have h'' : ¬ b0.toNat ≤ 0xEF := by omega
      simp [Dot.plen, hb, this, h', h'']
  | short _ _ h1 h2 h3 h hp => subst hp; simp [Dot.plen, h1, h2, h3]
  | x _ _ hp => subst hp; simp [Dot.plen, hex_length]
  | u _ _ hp => subst hp; simp [Dot.plen, hex_length]
  | U _ hp => subst hp; simp [Dot.plen, hex_length]

theorem Valid.head {s : Bytes} {r w : Nat} (h : Valid s r w) (h2 : r ≠ 92) : ∃ c o, s.take w = c :: o ∧ c ≠ 92 := by
  cases h with
  | one a => exact ⟨_, _, rfl, by rintro rfl; exact h2 rfl⟩
  | two a1 => exact ⟨_, _, rfl, by rintro rfl; simp at a1⟩
  | three a1 => exact ⟨_, _, rfl, by rintro rfl; simp at a1⟩
  | four a1 => exact ⟨_, _, rfl, by rintro rfl; simp at a1⟩

/-- The same piece stands for the same text. -/
theorem Piece.same {s s' p : Bytes} {w w' : Nat} (h : Piece s w p) (h' : Piece s' w' p) : s.take w = s'.take w' := by
  cases h with
  | raw hv h1 h2 h3 hp =>
    cases h' with
    | raw hv' h1' h2' h3' hp' => rw [← hp, ← hp']
    | short _ _ _ _ _ _ hp' => obtain ⟨c, o, e, hc⟩ := hv.head h2; rw [← hp, hp'] at e; cases e; exact absurd rfl hc
    | x _ _ hp' => obtain ⟨c, o, e, hc⟩ := hv.head h2; rw [← hp, hp'] at e; cases e; exact absurd rfl hc
    | u _ _ hp' => obtain ⟨c, o, e, hc⟩ := hv.head h2; rw [← hp, hp'] at e; cases e; exact absurd rfl hc
    | U _ hp' => obtain ⟨c, o, e, hc⟩ := hv.head h2; rw [← hp, hp'] at e; cases e; exact absurd rfl hc
  | short hv h1 h2 h3 h4 h5 hp =>
    subst hp
    cases h' with
    | raw hv' h1' h2' h3' hp' => obtain ⟨c, o, e, hc⟩ := hv'.head h2'; rw [← hp'] at e; cases e; exact absurd rfl hc
    | short hv' h1' _ _ _ _ hp' => cases hp'; rw [h1] at h1'; cases h1'; exact hv.spelling hv'
    | x _ _ hp' => cases hp'
    | u _ _ hp' => cases hp'
    | U _ hp' => cases hp'
  | x e hw hp =>
    subst hp e hw
    cases h' with
    | raw hv' h1' h2' h3' hp' => obtain ⟨c, o, e, hc⟩ := hv'.head h2'; rw [← hp'] at e; cases e; exact absurd rfl hc
    | short hv' h1' h2' _ _ _ hp' => cases hp'
    | x e' hw' hp' =>
      subst e' hw'
      simp only [List.cons.injEq, true_and] at hp'
      have := congrArg (value 16) hp'
      rw [hex_value 2 _ (UInt8.toNat_lt _), hex_value 2 _ (UInt8.toNat_lt _)] at this
      simp [uint8_ext this]
    | u _ _ hp' => simp at hp'
    | U _ hp' => simp at hp'
  | u hv hr hp =>
    subst hp
    cases h' with
    | raw hv' h1' h2' h3' hp' => obtain ⟨c, o, e, hc⟩ := hv'.head h2'; rw [← hp'] at e; cases e; exact absurd rfl hc
    | short hv' h1' _ h2' _ _ hp' => simp only [List.cons.injEq, true_and] at hp'; exact absurd hp'.1.symm h2'
    | x _ _ hp' => simp at hp'
    | u hv' hr' hp' =>
      simp only [List.cons.injEq, true_and] at hp'
      have := congrArg (value 16) hp'
      rw [hex_value 4 _ hr, hex_value 4 _ hr'] at this
      subst this
      exact hv.spelling hv'
    | U _ hp' => simp at hp'
  | U hv hp =>
    subst hp
    cases h' with
    | raw hv' h1' h2' h3' hp' => obtain ⟨c, o, e, hc⟩ := hv'.head h2'; rw [← hp'] at e; cases e; exact absurd rfl hc
    | short hv' h1' _ _ h2' _ hp' => simp only [List.cons.injEq, true_and] at hp'; exact absurd hp'.1.symm h2'
    | x _ _ hp' => simp at hp'
    | u _ _ hp' => simp at hp'
    | U hv' hp' =>
      simp only [List.cons.injEq, true_and] at hp'
      have := congrArg (value 16) hp'
      rw [hex_value 8 _ (by have := hv.facts.2.2.1; omega), hex_value 8 _ (by have := hv'.facts.2.2.1; omega)] at this
      subst this
      exact hv.spelling hv'

theorem Piece.ne_nil {s p : Bytes} {w : Nat} (h : Piece s w p) : p ≠ [] := by
  cases h with
  | raw hv h1 h2 h3 hp => obtain ⟨c, o, e, _⟩ := hv.head h2; rw [hp, e]; simp
  | short _ _ _ _ _ _ hp => simp [hp]
  | x _ _ hp => simp [hp]
  | u _ _ hp => simp [hp]
  | U _ hp => simp [hp]

theorem Piece.width {s p : Bytes} {w : Nat} (h : Piece s w p) : 1 ≤ w ∧ w ≤ s.length := by
  cases h with
  | raw hv => exact ⟨hv.facts.1, hv.facts.2.1⟩
  | short hv => exact ⟨hv.facts.1, hv.facts.2.1⟩
  | x e hw => subst e hw; simp
  | u hv => exact ⟨hv.facts.1, hv.facts.2.1⟩
  | U hv => exact ⟨hv.facts.1, hv.facts.2.1⟩

/-! ## The loop -/

theorem quoteLoop_escaped {isPrint : Nat → Bool} (hp : isPrint 10 = false) (fuel : Nat) (s : Bytes) : Escaped (quoteLoop isPrint fuel s) := by
  induction fuel generalizing s with
  | zero => exact .nil
  | succ fuel ih =>
    cases s with
    | nil => exact .nil
    | cons b t => exact (piece hp b t).escaped.append (ih _)

theorem quoteLoop_inj {isPrint : Nat → Bool} (hp : isPrint 10 = false) {n m : Nat} {s s' : Bytes} (h1 : s.length ≤ n) (h2 : s'.length ≤ m)
    (h : quoteLoop isPrint n s = quoteLoop isPrint m s') : s = s' := by
  induction n generalizing m s s' with
  | zero =>
    have : s = [] := by simpa using h1
    subst this
    cases s' with
    | nil => rfl
    | cons b t =>
      cases m with
      | zero => simp at h2
      | succ m =>
        have := (piece hp b t).ne_nil
        simp only [quoteLoop, List.isEmpty_cons, Bool.false_eq_true, if_false] at h
        have h := h.symm
        rw [List.append_eq_nil_iff] at h
        exact absurd h.1 this
  | succ n ih =>
    cases s with
    | nil =>
      cases s' with
      | nil => rfl
      | cons b t =>
        cases m with
        | zero => simp at h2
        | succ m =>
          have := (piece hp b t).ne_nil
          simp only [quoteLoop, List.isEmpty_cons, Bool.false_eq_true, if_false] at h
          have h := h.symm
          simp only [List.isEmpty_nil, if_true] at h
          rw [List.append_eq_nil_iff] at h
          exact absurd h.1 this
    | cons b t =>
      cases s' with
      | nil =>
        have := (piece hp b t).ne_nil
        cases m with
        | zero =>
          simp only [quoteLoop, List.isEmpty_cons, Bool.false_eq_true, if_false] at h
          rw [List.append_eq_nil_iff] at h
          exact absurd h.1 this
        | succ m =>
          simp only [quoteLoop, List.isEmpty_cons, Bool.false_eq_true, if_false, List.isEmpty_nil, if_true] at h
          rw [List.append_eq_nil_iff] at h
          exact absurd h.1 this
      | cons b' t' =>
        cases m with
        | zero => simp at h2
        | succ m =>
          simp only [quoteLoop, List.isEmpty_cons, Bool.false_eq_true, if_false] at h
          have p1 := piece hp b t
          have p2 := piece hp b' t'
          have hl : (quotePiece isPrint (b :: t)).length = (quotePiece isPrint (b' :: t')).length := by
            rw [← p1.plen, h, p2.plen]
          obtain ⟨e1, e2⟩ := List.append_inj h hl
          rw [e1] at p1
          have e3 := p1.same p2
          have w1 := p1.width
          have w2 := p2.width
          have e4 := ih (by rw [List.length_drop]; omega) (by rw [List.length_drop]; omega) e2
          rw [← List.take_append_drop (decodeRune (b :: t)).2 (b :: t), e3, e4, List.take_append_drop]

/-- `strconv.Quote` is a quoting as C71 and C72 need, whatever the table of printable characters says about anything but the line feed. -/
theorem strconvQuote_ok {isPrint : Nat → Bool} (hp : isPrint 10 = false) : Quotes (strconvQuote isPrint) where
  form s := ⟨_, quoteLoop_escaped hp s.length s, by simp [strconvQuote]⟩
  inj s s' h := by
    simp only [strconvQuote, List.singleton_append, List.cons.injEq, true_and, List.append_cancel_right_eq] at h
    exact quoteLoop_inj hp (Nat.le_refl _) (Nat.le_refl _) h

end Verif.Dot
