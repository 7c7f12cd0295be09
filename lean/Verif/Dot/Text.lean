import Verif.Dot.Model

/-!
# The text of Dot

The lines of `Verif/Dot/Model.lean` written out.  `%q` and `%#v` of the standard library are parameters.
-/

namespace Verif.Dot

/-- A literal of the source, ASCII only. -/
def ascii (s : String) : Bytes := s.toList.map fun c => UInt8.ofNat c.toNat

/-- `%d` of a number that is not negative. -/
def dec (n : Nat) : Bytes := if n < 10 then [UInt8.ofNat (48 + n)] else dec (n / 10) ++ [UInt8.ofNat (48 + n % 10)]

/-- One digit of `%x`. -/
def hexDigit (n : Nat) : UInt8 := UInt8.ofNat (if n < 10 then 48 + n else 87 + n)

/-- `%08x`, `%016x`: the given number of digits; only used where more are never needed. -/
def hex : Nat → Nat → Bytes
  | 0, _ => []
  | w + 1, n => hex w (n / 16) ++ [hexDigit (n % 16)]

/-- What `fmt` does with keys and values: `%q` of a string, `%#v` of a value, and the test `value != nil`. -/
structure Printer (V : Type) where
  quote : Bytes → Bytes
  goSyntax : V → Bytes
  isNil : V → Bool

variable {V D : Type}

/-- `v := fmt.Sprintf("%q", s)` and `v[1:len(v)-1]`.  numtree/node32.go:190-191, strtree/node.go:46-49. -/
def inner (P : Printer V) (s : Bytes) : Bytes := (P.quote s).tail.dropLast

/-- numtree/node32.go:184-195 `dotString` and numtree/node64.go:175-186 (`%016x`); `w / 4` digits.  nil is `none`. -/
def numDotString (P : Printer V) {w : Nat} : Option (Num.ND w V) → Bytes
  | none => ascii "[label=\"nil\"]"
  | some n =>
    if n.leaf then
      ascii "[label=\"k: " ++ hex (w / 4) n.key.toNat ++ ascii ", b: " ++ dec n.bits ++ ascii ", v: \\\"" ++
        inner P (P.goSyntax n.value) ++ ascii "\\\"\"]"
    else ascii "[label=\"k: " ++ hex (w / 4) n.key.toNat ++ ascii ", b: " ++ dec n.bits ++ ascii "\"]"

/-- `color` of strtree/node.go:52-55, dltree/node.go:57-60. -/
def color (red : Bool) : Bytes := if red then ascii "fillcolor=red" else ascii "fontcolor=white fillcolor=black"

/-- strtree/node.go:41-58 `dotString`, dltree/node.go:46-63 `dotString`. -/
def strDotString (P : Printer V) : Option (RB.RD Bytes V) → Bytes
  | none => ascii "[label=\"nil\" style=filled fontcolor=white fillcolor=black]"
  | some n =>
    let k := P.quote n.key
    let k := if P.isNil n.value then k
      else ascii "\"k: \\\"" ++ k.tail.dropLast ++ ascii "\\\" v: \\\"" ++ inner P (P.goSyntax n.value) ++ ascii "\\\"\""
    ascii "[label=" ++ k ++ ascii " style=filled " ++ color n.red ++ ascii "]"

/-- uintX/strtree8/node.go:43-57 `dotString` (16, 32, 64 alike); the value is an unsigned number. -/
def uintDotString (quote : Bytes → Bytes) : Option (RB.RD Bytes Nat) → Bytes
  | none => ascii "[label=\"nil\" style=filled fontcolor=white fillcolor=black]"
  | some n =>
    let k := quote n.key
    let k := ascii "\"k: \\\"" ++ k.tail.dropLast ++ ascii "\\\" v: \\\"" ++ dec n.value ++ ascii "\\\"\""
    ascii "[label=" ++ k ++ ascii " style=filled " ++ color n.red ++ ascii "]"

/-- What is added to `body` for a line.  numtree/node32.go:48,52, strtree/node.go:26,30, dltree/node.go:31,35. -/
def lineText (ds : Option D → Bytes) : Line D → Bytes
  | .node i d => ascii "N" ++ dec i ++ ascii " " ++ ds d ++ ascii "\n"
  | .edge i a b => ascii "N" ++ dec i ++ ascii " -> { N" ++ dec a ++ ascii " N" ++ dec b ++ ascii " }\n"

/-- `"digraph d {\n" + body + "}\n"`.  numtree/node32.go:60, strtree/strtree.go:103, dltree/dltree.go:147. -/
def frame (ds : Option D → Bytes) (ls : List (Line D)) : Bytes :=
  ascii "digraph d {\n" ++ ls.flatMap (lineText ds) ++ ascii "}\n"

/-- numtree/node32.go:39-61 `(*Node32).Dot`, numtree/node64.go:46-66 `(*Node64).Dot`.  (`none` never happens, see C51.) -/
def numText (P : Printer V) {w : Nat} (t : Num.NTree w V) : Option Bytes := (dot t).map (frame (numDotString P))

/-- strtree/strtree.go:95-104 `Dot`. -/
def strText (P : Printer V) (t : Option (Strtree.Tree V)) : Option Bytes := (strtreeDot t).map (frame (strDotString P))

/-- dltree/dltree.go:139-148 `Dot`. -/
def dlText (P : Printer V) (t : Option (DL.Tree V)) : Option Bytes := (dltreeDot t).map (frame (strDotString P))

/-- uintX/strtree8/strtree.go:97-106 `Dot` (16, 32, 64 alike). -/
def uintText (quote : Bytes → Bytes) (t : Option (Strtree.Tree Nat)) : Option Bytes :=
  (strtreeDot t).map (frame (uintDotString quote))

end Verif.Dot
