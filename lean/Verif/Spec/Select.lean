import Verif.Core.Bytes

/-! # Dotted selectors -/

namespace Verif.Sel

/-- The pieces between dots. -/
def parts : Bytes → List Bytes
  | [] => [[]]
  | c :: cs =>
    if c = 46 then [] :: parts cs
    else
      match parts cs with
      | [] => [[c]]
      | h :: t => (c :: h) :: t

end Verif.Sel
