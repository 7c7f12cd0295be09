import Verif.Etc.Model
import Verif.Etc.Data
import Verif.Etc.Files

/-!
# etc/main.go, file.go, template.go, config.go and `load` of data.go

The libraries yaml and text/template are parameters: any functions.
-/

namespace Verif.Etc

/-- The libraries. -/
structure Libs (X : Type) where
  /-- `yaml.Decoder.Decode` into a map. -/
  decode : Bytes → Option (List (Bytes × Val X))
  /-- `Parse` and `Execute` of a text with the data. -/
  expand : Val X → Bytes → Option Bytes
  /-- `ParseFiles` of a file (its name and contents) and `Execute` with the data: `none` if parsing fails, otherwise what is
  written, and whether `Execute` reached the end. -/
  fill : Val X → Bytes → Bytes → Option (Bytes × Bool)

/-- Lines of the log, etc/main.go:24,37,49. -/
inductive LogLine where
  | executing (name : Bytes)
  | directory (name new : Bytes)
  | file (name new : Bytes)
deriving DecidableEq, Repr

/-- The world outside the process: files and log. -/
structure World where
  fs : FS
  log : List LogLine := []
deriving DecidableEq, Repr

/-- How the process ends: normally, by `log.Fatal`, or not yet within the bound on nested calls. -/
inductive Ending where
  | done (w : World)
  | fatal (w : World)
  | more
deriving DecidableEq, Repr

def World.say (w : World) (l : LogLine) : World := { w with log := w.log ++ [l] }

variable {X : Type}

/-- etc/file.go:9-13 `executeDir`. -/
def executeDir (w : World) (p : Place) : World × Bool := ({ w with fs := (w.fs.mkdirs [] p).1 }, (w.fs.mkdirs [] p).2)

/-- etc/file.go:15-30 `executeFile`, `src` being the file opened by `ParseFiles(in)`. -/
def executeFile (L : Libs X) (d : Val X) (w : World) (out : Place) (inName : Bytes) (src : Place) : Ending :=
  match w.fs.get src with
  | some (.file b) =>
    match L.fill d inName b with
    | none => .fatal w
    | some (t, ok) =>
      match w.fs.create out t with
      | none => .fatal w
      | some fs => if ok then .done { w with fs } else .fatal { w with fs }
  | _ => .fatal w

/-- etc/main.go:44-46, the loop over the items of a directory. -/
def each (run : Bytes → World → Ending) : List Bytes → World → Ending
  | [], w => .done w
  | i :: is, w =>
    match run i w with
    | .done w => each run is w
    | e => e

/-- etc/main.go:17-52 `execute` in the working directory `wd` with data `d`; `filepath.Abs` does not fail.
etc/template.go:9-22 `executeString` is `L.expand`. -/
def execute (L : Libs X) (wd : Bytes) (d : Val X) (pre : List Bytes) : Nat → Bytes → World → Ending
  | 0, _, _ => .more
  | f + 1, name, w =>
    let absName := Abs wd name
    match getRelName absName pre with
    | none => .more
    | some relName =>
      let w := w.say (.executing relName)
      match w.fs.get (resolve wd absName) with
      | none => .fatal w
      | some fi =>
        match L.expand d absName with
        | none => .fatal w
        | some newName =>
          if newName = absName then .fatal w
          else
            match getRelName newName pre with
            | none => .more
            | some newRel =>
              match fi with
              | .dir =>
                match executeDir (w.say (.directory relName newRel)) (resolve wd newName) with
                | (w, false) => .fatal w
                | (w, true) =>
                  match w.fs.readDir (resolve wd absName) with
                  | none => .fatal w
                  | some lst => each (fun item w => execute L wd d pre f (Join [absName, item]) w) lst w
              | .file _ => executeFile L d (w.say (.file relName newRel)) (resolve wd newName) absName (resolve wd absName)

/-- etc/data.go:12-32 `load`.  Opening "" fails. -/
def load (L : Libs X) (wd : Bytes) (fs : FS) (name path : Bytes) : Option (Val X) :=
  if name = [] then none
  else
    match fs.get (resolve wd name) with
    | some (.file b) => (L.decode b).bind (sel path)
    | _ => none

/-- etc/config.go:16-26 `parseFlags` after the flags have been read, etc/main.go:12-15 `main`. -/
def main (L : Libs X) (wd : Bytes) (template data selector : Bytes) (f : Nat) (w : World) : Ending :=
  if template.length ≤ 0 then .fatal w
  else
    match load L wd w.fs data selector with
    | none => .fatal w
    | some d =>
      match makePrefix wd template with
      | none => .fatal w
      | some pre => execute L wd d pre f template w

end Verif.Etc
