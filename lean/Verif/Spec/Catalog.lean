import Verif.Core.Bytes

/-! # The order of a walk through a directory tree -/

namespace Verif.Catalog

/-- A directory comes before what is in it; names of one directory in byte order. -/
def Earlier : List Bytes → List Bytes → Prop
  | [], [] => False
  | [], _ :: _ => True
  | _ :: _, [] => False
  | a :: p, b :: q => compareBytes a b < 0 ∨ (a = b ∧ Earlier p q)

end Verif.Catalog
