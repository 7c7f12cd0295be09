import Verif.Spec.Net

/-! # Updating a listing with a callback that may panic -/

namespace Verif

/-- What updating the strict descendants of `p` does to a listing if the callback may panic (`none`): it is called in order for each of them with the calls it got
so far, key and value; the value is replaced if it says so; all stays as it is from a panic on.  The second component is the log of calls, if it did not panic. -/
def updateUntil {V : Type} (cb : List (IPNet × V) → IPNet → V → Option (V × Bool)) (f : Fam) (p : List Bool) :
    List (IPNet × V) → List (IPNet × V) → List (IPNet × V) × Option (List (IPNet × V))
  | [], s => ([], some s)
  | (k, v) :: xs, s =>
    if strictlyBelow f p k then
      match cb s k v with
      | none => ((k, v) :: xs, none)
      | some r =>
        let rest := updateUntil cb f p xs (s ++ [(k, v)])
        ((k, if r.2 then r.1 else v) :: rest.1, rest.2)
    else
      let rest := updateUntil cb f p xs s
      ((k, v) :: rest.1, rest.2)

end Verif
