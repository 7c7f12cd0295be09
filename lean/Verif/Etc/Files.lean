import Verif.Spec.Path

/-!
# The file system etc works on

An assumption about the environment, recorded in DESIGN.md: directories and regular files with their contents, no links, no
permissions, no limits, nobody else at work.  A place is the list of names from the root.
-/

namespace Verif.Etc
open Verif.Path

/-- Names from the root. -/
abbrev Place := List Bytes

/-- What is found at a place. -/
inductive Entry where
  | dir
  | file (contents : Bytes)
deriving DecidableEq, Repr

/-- All entries but the root, which is always there. -/
abbrev FS := List (Place × Entry)

/-- Entry at a place. -/
def FS.find : FS → Place → Option Entry
  | [], _ => none
  | (q, e) :: fs, p => if q = p then some e else FS.find fs p

/-- `stat` -/
def FS.get (fs : FS) (p : Place) : Option Entry := if p = [] then some .dir else fs.find p

/-- A new entry, or new contents of a file. -/
def FS.put (fs : FS) (p : Place) (e : Entry) : FS := (p, e) :: fs.filter fun x => x.1 ≠ p

/-- The name in the directory `p`, if the entry is there. -/
def nameIn (p : Place) (x : Place × Entry) : Option Bytes := if x.1.dropLast = p then x.1.getLast? else none

/-- Insert a name in order. -/
def insertName (n : Bytes) : List Bytes → List Bytes
  | [] => [n]
  | m :: l => if n = m then m :: l else if compareBytes n m < 0 then n :: m :: l else m :: insertName n l

/-- `ioutil.ReadDir`: the names in a directory, sorted. -/
def FS.readDir (fs : FS) (p : Place) : Option (List Bytes) :=
  match fs.get p with
  | some .dir => some ((fs.filterMap (nameIn p)).foldr insertName [])
  | _ => none

/-- `os.MkdirAll`, from the place `base` down the names `p`; the flag says whether it succeeded. -/
def FS.mkdirs (fs : FS) (base : Place) : Place → FS × Bool
  | [] => (fs, true)
  | n :: p =>
    match fs.get (base ++ [n]) with
    | some .dir => FS.mkdirs fs (base ++ [n]) p
    | some (.file _) => (fs, false)
    | none => FS.mkdirs (fs.put (base ++ [n]) .dir) (base ++ [n]) p

/-- `os.Create` followed by writing `contents`: the directory has to be there, and the place must not be a directory. -/
def FS.create (fs : FS) (p : Place) (contents : Bytes) : Option FS :=
  match fs.get p with
  | some .dir => none
  | _ =>
    match fs.get p.dropLast with
    | some .dir => some (fs.put p (.file contents))
    | _ => none

/-- The place a path leads to in the working directory `wd`. -/
def resolve (wd p : Bytes) : Place := place (if Rooted p then p else wd ++ 47 :: p)

end Verif.Etc
