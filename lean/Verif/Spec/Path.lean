import Verif.Core.Bytes

/-!
# Slash-separated paths as lists of components

The reference for `etc`: what the components of a path are, independent of how the code walks over the bytes.
-/

namespace Verif.Path

/-- "." -/
def dot1 : Bytes := [46]
/-- ".." -/
def dot2 : Bytes := [46, 46]

/-- The pieces between slashes. -/
def pieces : Bytes → List Bytes
  | [] => [[]]
  | c :: cs =>
    if c = 47 then [] :: pieces cs
    else
      match pieces cs with
      | [] => [[c]]
      | h :: t => (c :: h) :: t

/-- Pieces joined with slashes. -/
def joined : List Bytes → Bytes
  | [] => []
  | [a] => a
  | a :: b :: r => a ++ 47 :: joined (b :: r)

/-- A path is rooted if it starts with a slash. -/
def Rooted (p : Bytes) : Prop := p.head? = some 47

instance (p : Bytes) : Decidable (Rooted p) := inferInstanceAs (Decidable (_ = _))

/-- Walk one piece further from the place described by `st`: empty pieces and "." stay, ".." goes up, at the root it
stays. -/
def walk (rooted : Prop) [Decidable rooted] (st : List Bytes) (c : Bytes) : List Bytes :=
  if c = [] ∨ c = dot1 then st
  else if c = dot2 then
    match st.getLast? with
    | none => if rooted then st else [dot2]
    | some l => if l = dot2 then st ++ [dot2] else st.dropLast
  else st ++ [c]

/-- Where the path leads: names below the root or the current directory. -/
def place (p : Bytes) : List Bytes := (pieces p).foldl (walk (Rooted p)) []

/-- The components of a path: "/" first for rooted ones, "." if nothing else is left. -/
def components (p : Bytes) : List Bytes :=
  if Rooted p then [47] :: place p else if place p = [] then [dot1] else place p

/-- The shortest text of the path. -/
def text (rooted : Prop) [Decidable rooted] (names : List Bytes) : Bytes :=
  if rooted then 47 :: joined names else if names = [] then dot1 else joined names

/-- Last name in the text of the path: "." for the empty path and "/" if there are slashes only. -/
def lastName (p : Bytes) : Bytes :=
  if p = [] then dot1
  else match ((pieces p).filter (· ≠ [])).getLast? with
    | some l => l
    | none => [47]

end Verif.Path
