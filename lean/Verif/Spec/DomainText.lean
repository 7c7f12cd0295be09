import Verif.Core.Bytes

/-!
# Grammar of textual domain names

A character of a label is written plainly, as a backslash and a non-digit, or as a backslash and three
decimal digits (RFC 4343).  Labels are separated by dots; a final dot is allowed.
-/

namespace Verif.DomainText

/-- One written character. -/
inductive Tok where
  | plain (c : UInt8)
  | esc (c : UInt8)
  | dec (a b c : UInt8)
  deriving Repr, DecidableEq

def isDigit (c : UInt8) : Prop := 48 ≤ c.toNat ∧ c.toNat ≤ 57

instance (c : UInt8) : Decidable (isDigit c) := inferInstanceAs (Decidable (_ ∧ _))

/-- Value of a three-digit escape. -/
def decVal (a b c : UInt8) : Nat := (a.toNat - 48) * 100 + (b.toNat - 48) * 10 + (c.toNat - 48)

/-- Well-formed characters: 46 is the dot, 92 the backslash. -/
def Tok.Valid : Tok → Prop
  | .plain c => c ≠ 46 ∧ c ≠ 92
  | .esc c => ¬ isDigit c
  | .dec a b c => isDigit a ∧ isDigit b ∧ isDigit c ∧ decVal a b c ≤ 255

instance (t : Tok) : Decidable t.Valid := by
  cases t <;> simp only [Tok.Valid] <;> infer_instance

/-- How it is written. -/
def Tok.text : Tok → Bytes
  | .plain c => [c]
  | .esc c => [92, c]
  | .dec a b c => [92, a, b, c]

/-- What it stands for. -/
def Tok.byte : Tok → UInt8
  | .plain c => c
  | .esc c => c
  | .dec a b c => UInt8.ofNat (decVal a b c)

/-- Text of a label. -/
def labelText (l : List Tok) : Bytes := l.flatMap Tok.text

/-- Text of a list of labels, with or without a final dot. -/
def nameText : List (List Tok) → Bool → Bytes
  | [], _ => []
  | [l], trailing => labelText l ++ (if trailing then [46] else [])
  | l :: ls, trailing => labelText l ++ 46 :: nameText ls trailing

/-- ASCII upper-casing. -/
def toUpper (c : UInt8) : UInt8 := if 97 ≤ c.toNat ∧ c.toNat ≤ 122 then UInt8.ofNat (c.toNat - 32) else c

/-- The label meant. -/
def labelBytes (l : List Tok) : Bytes := l.map fun t => toUpper t.byte

/-- Limits on a list of labels: 1..63 characters each, 255 in total counting one more for each label. -/
def WithinLimits (ls : List (List Tok)) : Prop :=
  (∀ l ∈ ls, 1 ≤ l.length ∧ l.length ≤ 63) ∧ (ls.map fun l => l.length + 1).sum ≤ 255

/-- Calling `f` on the elements in turn until it reports an error. -/
def foldStop {σ E α : Type} (f : σ → α → σ × Option E) : σ → List α → σ × Option E
  | st, [] => (st, none)
  | st, a :: as =>
    match f st a with
    | (st', some e) => (st', some e)
    | (st', none) => foldStop f st' as

/-- Labels with ASCII case ignored. -/
def caseFold (ls : List Bytes) : List Bytes := ls.map (·.map toUpper)

/-- Bytes the text of a label stands for, before upper-casing. -/
def decoded (l : List Tok) : Bytes := l.map Tok.byte

/-- The labels are well formed: no empty one, only valid characters. -/
def Valids (ls : List (List Tok)) : Prop := ∀ l ∈ ls, l ≠ [] ∧ ∀ t ∈ l, t.Valid

/-- ASCII lower-casing. -/
def toLower (c : UInt8) : UInt8 := if 65 ≤ c.toNat ∧ c.toNat ≤ 90 then UInt8.ofNat (c.toNat + 32) else c

/-- How a byte of a label is printed: dot and backslash after a backslash, other bytes that are not visible ASCII as a backslash
and three digits, letters in lower case. -/
def printed (c : UInt8) : Bytes :=
  if c = 46 ∨ c = 92 then [92, c]
  else if c.toNat < 33 ∨ 126 < c.toNat then
    [92, UInt8.ofNat (48 + c.toNat / 100), UInt8.ofNat (48 + c.toNat / 10 % 10), UInt8.ofNat (48 + c.toNat % 10)]
  else [toLower c]

/-- A label printed. -/
def printedText (l : Bytes) : Bytes := l.flatMap printed

/-- The text starts with a backslash that begins no well-formed character. -/
def BrokenEscape (s : Bytes) : Prop := (∃ r, s = 92 :: r) ∧ ∀ t : Tok, t.Valid → ¬ t.text <+: s

end Verif.DomainText
