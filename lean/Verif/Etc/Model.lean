import Verif.Etc.Path

/-!
# etc/names.go

The template tool's path handling.  `log.Fatal` is `none`.
-/

namespace Verif.Etc

/-- etc/names.go:32 `preAllocStrings`. -/
def preAllocStrings : Nat := 10

/-- etc/names.go:39-61, the loop of `fullSplit`; `i` is its value before `i--`.  `none`: out of fuel. -/
def splitLoop : Nat → Bytes → List Bytes → Nat → Option (List Bytes)
  | 0, _, _, _ => none
  | fuel + 1, d, out, i =>
    match i with
    | 0 => splitLoop fuel d (List.replicate preAllocStrings [] ++ out) preAllocStrings
    | i + 1 =>
      let parent := (Split d).1
      let f := (Split d).2
      if f.length = 0 then some ((out.set i (Clean parent)).drop i)
      else if parent.length = 0 then some ((out.set i f).drop i)
      else splitLoop fuel (Clean parent) (out.set i f) i

/-- etc/names.go:34-64 `fullSplit`.  The number of rounds is bounded by twice the number of components. -/
def fullSplit (p : Bytes) : Option (List Bytes) :=
  splitLoop (2 * p.length + 4) (Clean p) (List.replicate preAllocStrings []) preAllocStrings

/-- etc/names.go:71-75, the loop of `hasPrefix` from index `i` on; both slices are in range there. -/
def prefixLoop : List Bytes → List Bytes → Bool
  | _, [] => true
  | [], _ :: _ => false
  | a :: p, item :: pre => if a ≠ item then false else prefixLoop p pre

/-- etc/names.go:66-78 `hasPrefix`. -/
def hasPrefix (p pre : List Bytes) : Bool :=
  if p.length < pre.length then false else prefixLoop p pre

/-- etc/names.go:23-30 `getRelName`. -/
def getRelName (p : Bytes) (pre : List Bytes) : Option Bytes :=
  (fullSplit p).map fun seq => if hasPrefix seq pre then Join (seq.drop pre.length) else Base p

/-- etc/names.go:9-21 `makePrefix` in the working directory `wd`. -/
def makePrefix (wd p : Bytes) : Option (List Bytes) :=
  if (Split (Abs wd p)).2.length = 0 then none else fullSplit (Split (Abs wd p)).1

end Verif.Etc
