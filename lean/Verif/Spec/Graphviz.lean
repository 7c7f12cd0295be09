import Verif.Core.Bytes

/-!
# The words of a Graphviz file

The lexical rules of the DOT language, as far as the dumps need them: names, quoted texts in which a backslash protects the
next character, arrows, brackets, braces and equals signs, separated by white space.  Comments, HTML texts, the signs `--`,
`,`, `;`, `:` and `+` are not read: a text that has them outside quotes is refused.
-/

namespace Verif.Graphviz

/-- A word. -/
inductive Tok where
  | id (s : Bytes)
  /-- A quoted text, without the quotes, escapes as written. -/
  | str (s : Bytes)
  | arrow | lbrace | rbrace | lbrack | rbrack | eq
  deriving DecidableEq, Repr

/-- Where the reader is. -/
inductive St where
  | out
  | id (s : Bytes)
  | str (s : Bytes)
  | esc (s : Bytes)
  | dash
  deriving DecidableEq, Repr

/-- Letters, digits, underscore and everything beyond ASCII. -/
def idChar (c : UInt8) : Bool :=
  (65 ≤ c && c ≤ 90) || (97 ≤ c && c ≤ 122) || (48 ≤ c && c ≤ 57) || c == 95 || 128 ≤ c

/-- A character outside names and quotes. -/
def stepOut (c : UInt8) : Option (List Tok × St) :=
  if c == 32 || c == 9 || c == 10 || c == 13 then some ([], .out)
  else if idChar c then some ([], .id [c])
  else if c == 34 then some ([], .str [])
  else if c == 45 then some ([], .dash)
  else if c == 123 then some ([.lbrace], .out)
  else if c == 125 then some ([.rbrace], .out)
  else if c == 91 then some ([.lbrack], .out)
  else if c == 93 then some ([.rbrack], .out)
  else if c == 61 then some ([.eq], .out)
  else none

/-- One character. -/
def step : St → UInt8 → Option (List Tok × St)
  | .out, c => stepOut c
  | .id s, c => if idChar c then some ([], .id (s ++ [c])) else (stepOut c).map fun r => (.id s :: r.1, r.2)
  | .str s, c => if c == 34 then some ([.str s], .out) else if c == 92 then some ([], .esc s) else some ([], .str (s ++ [c]))
  | .esc s, c => some ([], .str (s ++ [92, c]))
  | .dash, c => if c == 62 then some ([.arrow], .out) else none

/-- Many characters. -/
def steps : St → Bytes → Option (List Tok × St)
  | st, [] => some ([], st)
  | st, c :: cs =>
    match step st c with
    | none => none
    | some (ts, st') => (steps st' cs).map fun r => (ts ++ r.1, r.2)

/-- The words of a file; `none` if it is not made of words. -/
def words (text : Bytes) : Option (List Tok) :=
  match steps .out text with
  | some (ts, .out) => some ts
  | some (ts, .id s) => some (ts ++ [.id s])
  | _ => none

/-- A text that can stand between double quotes on one line: no line feeds, and quotes and backslashes only behind a
backslash. -/
inductive Escaped : Bytes → Prop
  | nil : Escaped []
  | plain {c s} : c ≠ 34 → c ≠ 92 → c ≠ 10 → Escaped s → Escaped (c :: s)
  | esc {c s} : c ≠ 10 → Escaped s → Escaped (92 :: c :: s)

/-- The number written by digits `0`-`9`, `a`-`f` in the given base. -/
def value (base : Nat) (ds : Bytes) : Nat :=
  ds.foldl (fun n c => n * base + (if c < 58 then c.toNat - 48 else c.toNat - 87)) 0

end Verif.Graphviz
