import Verif.IP.Model
import Verif.UIP.Model
import Verif.Strtree.Model
import Verif.DL.Model
import Verif.DomTree.Model

/-!
# Lookups with both results

The models of lookups in the other files return an `Option`: the value if the flag is true.  Here the same functions return what Go
returns, a value and a flag, so that the value beside a false flag can be seen.  `zero` stands for `nil` or `0`.
-/

namespace Verif.Miss
open Verif Verif.Num Verif.RB

/-- An `interface{}` as numtree and iptree hand it out: nil, something a user stored, a nil pointer with the type of a node (such an
interface is not equal to nil), or a nested tree. -/
inductive Any (V : Type) where
  | nil
  | user (v : V)
  | nilNode (w : Nat)
  | sub (t : NTree 64 V)

section
variable {w : Nat} [KeySize w] {V : Type}

/-- numtree/node32.go:107-127 `Match`, node64.go:113-130: `return n, false` hands out the nil receiver.  `wrap` makes an interface of a
stored value. -/
def Match {W : Type} (wrap : W → Any V) (t : NTree w W) (key : BitVec w) (bits : Int) : Any V × Bool :=
  match t with
  | .nil => (.nilNode w, false)
  | t =>
    match matchN t key (clamp w bits) with
    | none => (.nil, false)
    | some r => (wrap r.value, true)

/-- numtree/node32.go:134-142 `ExactMatch`, node64.go:133-139. -/
def ExactMatch {W : Type} (wrap : W → Any V) (t : NTree w W) (key : BitVec w) (bits : Int) : Any V × Bool :=
  match FindNode t key bits with
  | .nil => (.nil, false)
  | .node n _ _ => (wrap n.value, true)

/-- uintX/iptree8/node32.go:108-128 `Match`, node64.go:111-128, node64s.go:87-104. -/
def MatchZ (zero : V) (t : NTree w V) (key : BitVec w) (bits : Int) : V × Bool :=
  match t with
  | .nil => (zero, false)
  | t =>
    match matchN t key (clamp w bits) with
    | none => (zero, false)
    | some r => (r.value, true)
end

variable {V : Type}

/-- A stored value of `root64` as an interface. -/
def wrapTV : IP.TV V → Any V
  | .user v => .user v
  | .sub s => .sub s

/-- iptree/iptree.go:247-276 `GetByNet`. -/
def GetByNet (t : Option (IP.Tree V)) (n : Option IPNet) : Any V × Bool :=
  match t, n with
  | some t, some n =>
    match IP.v4Key n with
    | some (key, bits) => Match .user t.root32 key bits
    | none =>
      match IP.v6Pair n with
      | some k =>
        match Match wrapTV t.root64 k.msKey k.msBits with
        | (v, ok) =>
          if !ok || k.msBits < 64 then (v, ok)
          else
            match v with
            | .sub s =>
              match Match .user s k.lsKey k.lsBits with
              | (v, true) => (v, true)
              | (_, false) => Match wrapTV t.root64 k.msKey 63
            | v => (v, true)
      | none => (.nil, false)
  | _, _ => (.nil, false)

/-- iptree/iptree.go:279-281 `GetByIP`. -/
def GetByIP (t : Option (IP.Tree V)) (ip : Bytes) : Any V × Bool := GetByNet t (IP.newIPNetFromIP ip)

/-- uintX/iptree8/iptree.go:124-153 `GetByNet`; the zero of nested trees is nil. -/
def UGetByNet (zero : V) (t : Option (UIP.Tree V)) (n : Option IPNet) : V × Bool :=
  match t, n with
  | some t, some n =>
    match IP.v4Key n with
    | some (key, bits) => MatchZ zero t.root32 key bits
    | none =>
      match IP.v6Pair n with
      | some k =>
        match MatchZ .nil t.root64 k.msKey k.msBits with
        | (_, false) => (zero, false)
        | (s, true) =>
          match MatchZ zero s k.lsKey k.lsBits with
          | (v, ok) =>
            if ok || k.msBits < 64 then (v, ok)
            else
              match MatchZ .nil t.root64 k.msKey ((k.msBits : Int) - 1) with
              | (_, false) => (zero, false)
              | (s, true) => MatchZ zero s k.lsKey k.lsBits
      | none => (zero, false)
  | _, _ => (zero, false)

/-- strtree/node.go:276-293 `get`, dltree/node.go:287-306. -/
def get {K : Type} (zero : V) (cmp : K → K → Int) : RTree K V → K → V × Bool
  | .nil, _ => (zero, false)
  | .node d l r, key =>
    if cmp d.key key = 0 then (d.value, true)
    else if cmp d.key key < 0 then get zero cmp r key else get zero cmp l key

/-- strtree/strtree.go:53-60 `Get`. -/
def SGet (zero : V) (t : Option (Strtree.Tree V)) (key : Bytes) : V × Bool :=
  match t with
  | none => (zero, false)
  | some t => get zero t.compare t.root key

/-- dltree/dltree.go:70-77 `RawGet`. -/
def RawGet (zero : V) (t : Option (DL.Tree V)) (key : Bytes) : V × Bool :=
  match t with
  | none => (zero, false)
  | some t => get zero DL.cmpLabel t.root key

/-- dltree/dltree.go:60-68 `Get`; `none` is a panic. -/
def LGet (zero : V) (t : Option (DL.Tree V)) (key : Bytes) : Option (V × Bool) :=
  match t with
  | none => some (zero, false)
  | some t => (DL.labelOf key).map fun dl => get zero DL.cmpLabel t.root dl

/-- The callback of domaintree `Get` with the variables `n`, `value` and `hasValue`.  domaintree/domaintree.go:99-111. -/
def getStep (st : DomTree.Node V × V × Bool) (label : Bytes) : (DomTree.Node V × V × Bool) × Option Unit :=
  match DL.RawGet st.1.branches label with
  | none => (st, some ())
  | some n =>
    match n.val with
    | some v => ((n, v, true), none)
    | none => ((n, st.2), none)

/-- domaintree/domaintree.go:90-114 `Get`. -/
def DGet (zero : V) (n : Option (DomTree.Node V)) (d : Domain.Name) : Option (V × Bool) :=
  match n with
  | none => some (zero, false)
  | some n => (d.GetLabels getStep (n, zero, false)).map fun x => x.1.2

end Verif.Miss
