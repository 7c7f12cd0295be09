import Verif.IP.Model

/-!
# Functional model of the generated packages `uintX/iptree8`, `iptree16`, `iptree32`, `iptree64`

The four packages are the same text up to the value type (`uint8` ... `uint64`), here an arbitrary `V`.  Line numbers are of
`uintX/iptree8`.  `node32.go`, `node64.go` and `node64s.go` there are the algorithms of `numtree/node32.go` and
`numtree/node64.go` with the value types `uintX`, `uintX` and `*node64`, so the model of numtree (`Verif.Num`) is reused.
`iPv4NetToUint32`, `iPv6NetToUint64Pair`, the packing functions and `newIPNetFromIP` (lines 219-288) are the text of iptree,
modelled by `v4Key`, `v6Pair`, `pack32`... in `Verif.IP.Model`.
A nil `*Tree` or `*net.IPNet` is `none`.  A `(value, bool)` result is an `Option`.
-/

namespace Verif.UIP
open Verif Verif.Num Verif.IP
variable {V : Type}

/-- uintX/iptree8/iptree.go:19-22 `Tree`; the values of `root64` are nested trees (uintX/iptree8/node64s.go:11-22). -/
structure Tree (V : Type) where
  root32 : NTree 32 V
  root64 : NTree 64 (NTree 64 V)

instance : Inhabited (NTree 64 V) := ⟨.nil⟩

/-- uintX/iptree8/iptree.go:33-35 `NewTree`. -/
def NewTree : Tree V := ⟨.nil, .nil⟩

/-- uintX/iptree8/iptree.go:38-73 `InsertNet`. -/
def InsertNet [Inhabited V] (t : Option (Tree V)) (n : Option IPNet) (value : V) : Option (Tree V) :=
  match n with
  | none => t
  | some n =>
    let r := t.getD ⟨.nil, .nil⟩
    match v4Key n with
    | some (key, bits) => some ⟨Insert r.root32 key bits value, r.root64⟩
    | none =>
      match v6Pair n with
      | some k => some ⟨r.root32, Insert r.root64 k.msKey k.msBits (Insert ((ExactMatch r.root64 k.msKey k.msBits).getD .nil) k.lsKey k.lsBits value)⟩
      | none => t

/-- uintX/iptree8/iptree.go:97-99 `InsertIP`. -/
def InsertIP [Inhabited V] (t : Option (Tree V)) (ip : Bytes) (value : V) : Option (Tree V) := InsertNet t (newIPNetFromIP ip) value

/-- uintX/iptree8/iptree.go:124-153 `GetByNet`. -/
def GetByNet (t : Option (Tree V)) (n : Option IPNet) : Option V :=
  match t, n with
  | some t, some n =>
    match v4Key n with
    | some (key, bits) => Match t.root32 key bits
    | none =>
      match v6Pair n with
      | some k =>
        match Match t.root64 k.msKey k.msBits with
        | none => none
        | some s =>
          match Match s k.lsKey k.lsBits with
          | some v => some v
          | none =>
            if k.msBits < 64 then none
            else
              match Match t.root64 k.msKey ((k.msBits : Int) - 1) with
              | none => none
              | some s => Match s k.lsKey k.lsBits
      | none => none
  | _, _ => none

/-- uintX/iptree8/iptree.go:156-158 `GetByIP`. -/
def GetByIP (t : Option (Tree V)) (ip : Bytes) : Option V := GetByNet t (newIPNetFromIP ip)

/-- uintX/iptree8/iptree.go:161-188 `DeleteByNet`. -/
def DeleteByNet (t : Option (Tree V)) (n : Option IPNet) : Option (Tree V) × Bool :=
  match t, n with
  | some t, some n =>
    match v4Key n with
    | some (key, bits) =>
      match Delete t.root32 key bits with
      | (r, true) => (some ⟨r, t.root64⟩, true)
      | (_, false) => (some t, false)
    | none =>
      match v6Pair n with
      | some k =>
        match ExactMatch t.root64 k.msKey k.msBits with
        | none => (some t, false)
        | some v =>
          match Delete v k.lsKey k.lsBits with
          | (r, true) =>
            if r.isNil then (some ⟨t.root32, (Delete t.root64 k.msKey k.msBits).1⟩, true)
            else (some ⟨t.root32, Insert t.root64 k.msKey k.msBits r⟩, true)
          | (_, false) => (some t, false)
      | none => (some t, false)
  | t, _ => (t, false)

/-- uintX/iptree8/iptree.go:191-193 `DeleteByIP`. -/
def DeleteByIP (t : Option (Tree V)) (ip : Bytes) : Option (Tree V) × Bool := DeleteByNet t (newIPNetFromIP ip)

/-- uintX/iptree8/iptree.go:205-214, key of a node `m` of the nested tree under `n`.  `n.bits+m.bits` is a `uint8` sum; it does not
exceed 128 (`WFU`), so the natural-number sum is exact. -/
def key6 (n : ND 64 (NTree 64 V)) (m : ND 64 V) : IPNet :=
  ⟨maskIP (unpack64 n.key ++ unpack64 m.key) (cidrMask (n.bits + m.bits) 128), cidrMask (n.bits + m.bits) 128⟩

/-- uintX/iptree8/iptree.go:205-214, what is sent for one node of `root64`. -/
def enum6 (n : ND 64 (NTree 64 V)) : List (IPNet × V) := (Num.Enumerate n.value).map fun m => (key6 n m, m.value)

/-- uintX/iptree8/iptree.go:107-121 `Enumerate`, 195-217 `enumerate`: the pairs in the order they are sent. -/
def Enumerate (t : Option (Tree V)) : List (IPNet × V) :=
  match t with
  | none => []
  | some t => (Num.Enumerate t.root32).map (fun n => (key4 n, n.value)) ++ (Num.Enumerate t.root64).flatMap enum6

end Verif.UIP
