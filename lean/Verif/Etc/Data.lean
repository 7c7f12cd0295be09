import Verif.Core.Bytes

/-!
# etc/data.go

Decoded YAML data: maps with keys and values of any type.  Only string keys are ever looked up, so a map is the list of
its entries with string keys; errors are `none`.
-/

namespace Verif.Etc

/-- `interface{}` values: a `map[interface{}]interface{}` or anything else. -/
inductive Val (X : Type) where
  | map (entries : List (Bytes × Val X))
  | other (x : X)

variable {X : Type}

/-- `m[key]` -/
def look : List (Bytes × Val X) → Bytes → Option (Val X)
  | [], _ => none
  | (k, v) :: m, key => if k = key then some v else look m key

/-- `strings.SplitN(path, ".", 2)`: the part before the first dot and the part after it, if there is one. -/
def splitN2 : Bytes → Bytes × Option Bytes
  | [] => ([], none)
  | c :: cs => if c = 46 then ([], some cs) else (c :: (splitN2 cs).1, (splitN2 cs).2)

theorem splitN2_lt (p : Bytes) : ∀ q, (splitN2 p).2 = some q → q.length < p.length := by
  induction p with
  | nil => simp [splitN2]
  | cons c cs ih =>
    intro q h
    simp only [splitN2] at h
    split at h
    · simp at h; subst h; simp
    · have := ih q h; simp; omega

/-- etc/data.go:34-55 `sel`. -/
def sel (path : Bytes) (m : List (Bytes × Val X)) : Option (Val X) :=
  if path.length > 0 then
    match look m (splitN2 path).1 with
    | none => none
    | some v =>
      match _h : (splitN2 path).2 with
      | some rest =>
        match v with
        | .map m => sel rest m
        | .other _ => none
      | none => some v
  else some (.map m)
termination_by path.length
decreasing_by exact splitN2_lt _ _ _h

end Verif.Etc
