import Verif.Core.Bytes

/-!
# The parts of Go's packages path and path/filepath that etc uses

Written after the standard library's source, for Unix (separator '/', no volume names); an assumption recorded in
DESIGN.md.  Strings are byte lists.
-/

namespace Verif.Etc

/-- path/filepath/path.go `Clean`: backtrack loop `out.w--; for out.w > dotdot && out.index(out.w) != '/' { out.w-- }`.
The output is kept last byte first. -/
def back (dotdot : Nat) : Bytes → Bytes
  | [] => []
  | x :: xs => if xs.length > dotdot && x ≠ 47 then back dotdot xs else xs

/-- path/filepath/path.go `Clean`, the loop over the rest of the path; `out` is last byte first, so `out.w` is its
length. -/
def cleanLoop (rooted : Bool) (out : Bytes) (dotdot : Nat) (rest : Bytes) : Bytes :=
  match rest with
  | [] => out
  | c :: cs =>
    if c = 47 then cleanLoop rooted out dotdot cs
    else if c = 46 && (cs.isEmpty || cs.head? == some 47) then cleanLoop rooted out dotdot cs
    else if c = 46 && cs.head? == some 46 && (cs.tail.isEmpty || cs.tail.head? == some 47) then
      if out.length > dotdot then cleanLoop rooted (back dotdot out) dotdot cs.tail
      else if !rooted then
        let out := 46 :: 46 :: (if out.length > 0 then 47 :: out else out)
        cleanLoop rooted out out.length cs.tail
      else cleanLoop rooted out dotdot cs.tail
    else
      let out := if (rooted && out.length ≠ 1) || (!rooted && out.length ≠ 0) then 47 :: out else out
      cleanLoop rooted (((c :: cs).takeWhile (· ≠ 47)).reverse ++ out) dotdot ((c :: cs).dropWhile (· ≠ 47))
termination_by rest.length
decreasing_by
  all_goals simp_all
  · omega
  · omega
  · omega
  · have := (List.dropWhile_sublist (fun x => !decide (x = (47 : UInt8))) (l := cs)).length_le
    omega

/-- path/filepath/path.go `Clean` (path/path.go `Clean` is the same on Unix). -/
def Clean (p : Bytes) : Bytes :=
  match p with
  | [] => [46]
  | c :: cs =>
    let out := if c = 47 then cleanLoop true [47] 1 cs else cleanLoop false [] 0 (c :: cs)
    if out.length = 0 then [46] else out.reverse

/-- path/filepath/path.go `Split`: after the last separator. -/
def Split (p : Bytes) : Bytes × Bytes :=
  ((p.reverse.dropWhile (· ≠ 47)).reverse, (p.reverse.takeWhile (· ≠ 47)).reverse)

/-- path/filepath/path.go `Base`. -/
def Base (p : Bytes) : Bytes :=
  if p = [] then [46]
  else
    let p := (p.reverse.dropWhile (· = 47)).reverse
    let p := (p.reverse.takeWhile (· ≠ 47)).reverse
    if p = [] then [47] else p

/-- path/path.go `Join`, the loop that fills `buf`. -/
def joinBuf (buf : Bytes) : List Bytes → Bytes
  | [] => buf
  | e :: es =>
    if buf.length > 0 || e ≠ [] then joinBuf ((if buf.length > 0 then buf ++ [47] else buf) ++ e) es
    else joinBuf buf es

/-- path/path.go `Join`. -/
def Join (elem : List Bytes) : Bytes :=
  if (elem.map List.length).sum = 0 then [] else Clean (joinBuf [] elem)

/-- path/filepath/path_unix.go `Abs` for the working directory `wd` (`os.Getwd` succeeds with an absolute path). -/
def Abs (wd p : Bytes) : Bytes :=
  if p.head? = some 47 then Clean p else Join [wd, p]

end Verif.Etc
