import Verif.IP.Net
import Verif.Num.Model

/-!
# Functional model of iptree/iptree.go

Simplifications: `*Tree` and `*net.IPNet` are `Option`; a value stored in `root64` is either a user value or a nested
tree (`TV`; the Go type `subTree64` is not exported, so users cannot store one); a panic is the outer `none`.
Slices are byte lists.  `append(MSIP[0:8], LSIP...)` in `enumerate` and `updateNode64` overwrites the spare second half
of `MSIP`; the result is copied by `IP.Mask` at once, so byte lists lose nothing.
-/

namespace Verif.IP
open Verif Verif.Num
variable {V : Type}

/-- Values of `root64`: iptree/iptree.go:33 `subTree64` or anything else. -/
inductive TV (V : Type) where
  | user (v : V)
  | sub (t : NTree 64 V)

instance [Inhabited V] : Inhabited (TV V) := ⟨.user default⟩

/-- iptree/iptree.go:22-25 `Tree`. -/
structure Tree (V : Type) where
  root32 : NTree 32 V
  root64 : NTree 64 (TV V)

/-- iptree/iptree.go:36-38 `NewTree`. -/
def NewTree : Tree V := ⟨.nil, .nil⟩

/-- iptree/iptree.go:376-378 `packIPToUint32`.  Go panics for fewer than 4 bytes; callers check the length. -/
def pack32 (x : Bytes) : BitVec 32 :=
  ((x.getD 0 0).toBitVec.setWidth 32 <<< 24) ||| ((x.getD 1 0).toBitVec.setWidth 32 <<< 16) |||
  ((x.getD 2 0).toBitVec.setWidth 32 <<< 8) ||| (x.getD 3 0).toBitVec.setWidth 32

/-- One byte of iptree/iptree.go:381, 410-420: `byte(x >> s & 0xff)`. -/
def byteAt {w : Nat} (x : BitVec w) (s : Nat) : UInt8 := UInt8.ofBitVec (((x >>> s) &&& 0xff#w).setWidth 8)

/-- iptree/iptree.go:380-382 `unpackUint32ToIP`. -/
def unpack32 (x : BitVec 32) : Bytes := [byteAt x 24, byteAt x 16, byteAt x 8, byteAt x 0]

/-- iptree/iptree.go:405-408 `packIPToUint64`.  Go panics for fewer than 8 bytes; callers check the length. -/
def pack64 (x : Bytes) : BitVec 64 :=
  ((x.getD 0 0).toBitVec.setWidth 64 <<< 56) ||| ((x.getD 1 0).toBitVec.setWidth 64 <<< 48) |||
  ((x.getD 2 0).toBitVec.setWidth 64 <<< 40) ||| ((x.getD 3 0).toBitVec.setWidth 64 <<< 32) |||
  ((x.getD 4 0).toBitVec.setWidth 64 <<< 24) ||| ((x.getD 5 0).toBitVec.setWidth 64 <<< 16) |||
  ((x.getD 6 0).toBitVec.setWidth 64 <<< 8) ||| (x.getD 7 0).toBitVec.setWidth 64

/-- iptree/iptree.go:410-420 `unpackUint64ToIP`. -/
def unpack64 (x : BitVec 64) : Bytes :=
  [byteAt x 56, byteAt x 48, byteAt x 40, byteAt x 32, byteAt x 24, byteAt x 16, byteAt x 8, byteAt x 0]

/-- iptree/iptree.go:363-374 `iPv4NetToUint32`; bits -1 is `none`. -/
def v4Key (n : IPNet) : Option (BitVec 32 × Nat) :=
  if n.ip.length ≠ 4 then none
  else if (maskSize n.mask).2 ≠ 32 then none
  else some (pack32 n.ip, (maskSize n.mask).1)

/-- Result of `iPv6NetToUint64Pair`. -/
structure Pair64 where
  msKey : BitVec 64
  msBits : Nat
  lsKey : BitVec 64
  lsBits : Nat

/-- iptree/iptree.go:384-403 `iPv6NetToUint64Pair`; bits -1 is `none`. -/
def v6Pair (n : IPNet) : Option Pair64 :=
  if n.ip.length ≠ 16 then none
  else if (maskSize n.mask).2 ≠ 128 then none
  else
    let ones := (maskSize n.mask).1
    some { msKey := pack64 n.ip, msBits := if ones > 64 then 64 else ones,
           lsKey := pack64 (n.ip.drop 8), lsBits := if ones > 64 then ones - 64 else 0 }

/-- iptree/iptree.go:422-432 `newIPNetFromIP` with `iPv4MaxMask`, `iPv6MaxMask` (lines 16-19). -/
def newIPNetFromIP (ip : Bytes) : Option IPNet :=
  match to4 ip with
  | some ip4 => some ⟨ip4, cidrMask 32 32⟩
  | none =>
    match to16 ip with
    | some ip6 => some ⟨ip6, cidrMask 128 128⟩
    | none => none

/-- The type switch `v.(subTree64)` after `ExactMatch`: the nested tree, nil if there is no entry, or the explicit panic
for another value.  iptree/iptree.go:76-86,197-206,301-308. -/
def subOf (v : Option (TV V)) : Option (NTree 64 V) :=
  match v with
  | none => some .nil
  | some (.sub s) => some s
  | some (.user _) => none

variable [Inhabited V]

/-- iptree/iptree.go:41-92 `InsertNet`. -/
def InsertNet (t : Option (Tree V)) (n : Option IPNet) (value : V) : Option (Option (Tree V)) :=
  match n with
  | none => some t
  | some n =>
    let r := t.getD ⟨.nil, .nil⟩
    match v4Key n with
    | some (key, bits) => some (some ⟨Insert r.root32 key bits value, r.root64⟩)
    | none =>
      match v6Pair n with
      | some k =>
        if k.msBits < 64 then some (some ⟨r.root32, Insert r.root64 k.msKey k.msBits (.user value)⟩)
        else (subOf (ExactMatch r.root64 k.msKey k.msBits)).map fun s =>
          some ⟨r.root32, Insert r.root64 k.msKey k.msBits (.sub (Insert s k.lsKey k.lsBits value))⟩
      | none => some t

/-- iptree/iptree.go:220-222 `InsertIP`. -/
def InsertIP (t : Option (Tree V)) (ip : Bytes) (value : V) : Option (Option (Tree V)) := InsertNet t (newIPNetFromIP ip) value

omit [Inhabited V] in
/-- iptree/iptree.go:247-276 `GetByNet`.  The result is the interface value Go returns (in principle it could be a
nested tree). -/
def GetByNet (t : Option (Tree V)) (n : Option IPNet) : Option (TV V) :=
  match t, n with
  | some t, some n =>
    match v4Key n with
    | some (key, bits) => (Match t.root32 key bits).map .user
    | none =>
      match v6Pair n with
      | some k =>
        match Match t.root64 k.msKey k.msBits with
        | none => none
        | some v =>
          if k.msBits < 64 then some v
          else
            match v with
            | .user u => some (.user u)
            | .sub s =>
              match Match s k.lsKey k.lsBits with
              | some v => some (.user v)
              | none => Match t.root64 k.msKey 63
      | none => none
  | _, _ => none

omit [Inhabited V] in
/-- iptree/iptree.go:279-281 `GetByIP`. -/
def GetByIP (t : Option (Tree V)) (ip : Bytes) : Option (TV V) := GetByNet t (newIPNetFromIP ip)

/-- iptree/iptree.go:284-323 `DeleteByNet`. -/
def DeleteByNet (t : Option (Tree V)) (n : Option IPNet) : Option (Option (Tree V) × Bool) :=
  match t, n with
  | some t, some n =>
    match v4Key n with
    | some (key, bits) =>
      match Delete t.root32 key bits with
      | (r, true) => some (some ⟨r, t.root64⟩, true)
      | (_, false) => some (some t, false)
    | none =>
      match v6Pair n with
      | some k =>
        if k.msBits < 64 then
          match Delete t.root64 k.msKey k.msBits with
          | (r, true) => some (some ⟨t.root32, r⟩, true)
          | (_, false) => some (some t, false)
        else
          match ExactMatch t.root64 k.msKey k.msBits with
          | none => some (some t, false)
          | some v =>
            (subOf (some v)).map fun s =>
              match Delete s k.lsKey k.lsBits with
              | (r, true) =>
                if r.isNil then (some ⟨t.root32, (Delete t.root64 k.msKey k.msBits).1⟩, true)
                else (some ⟨t.root32, Insert t.root64 k.msKey k.msBits (.sub r)⟩, true)
              | (_, false) => (some t, false)
      | none => some (some t, false)
  | t, _ => some (t, false)

/-- iptree/iptree.go:326-328 `DeleteByIP`. -/
def DeleteByIP (t : Option (Tree V)) (ip : Bytes) : Option (Option (Tree V) × Bool) := DeleteByNet t (newIPNetFromIP ip)

omit [Inhabited V] in
/-- iptree/iptree.go:331-338, key built in the first loop of `enumerate`. -/
def key4 (n : ND 32 V) : IPNet := ⟨maskIP (unpack32 n.key) (cidrMask n.bits 32), cidrMask n.bits 32⟩

omit [Inhabited V] in
/-- iptree/iptree.go:343-350, key of a node of a nested tree under `ms`. -/
def key6s (ms : BitVec 64) (n : ND 64 V) : IPNet :=
  ⟨maskIP (unpack64 ms ++ unpack64 n.key) (cidrMask (64 + n.bits) 128), cidrMask (64 + n.bits) 128⟩

omit [Inhabited V] in
/-- iptree/iptree.go:352-358, key of a user value in `root64`. -/
def key6 (n : ND 64 V) : IPNet :=
  ⟨maskIP (unpack64 n.key ++ List.replicate 8 0) (cidrMask n.bits 128), cidrMask n.bits 128⟩

omit [Inhabited V] in
/-- iptree/iptree.go:340-360, what is sent for one node of `root64`. -/
def enum6 (n : ND 64 (TV V)) : List (IPNet × V) :=
  match n.value with
  | .sub s => (Num.Enumerate s).map fun m => (key6s n.key m, m.value)
  | .user v => [(key6 n, v)]

omit [Inhabited V] in
/-- iptree/iptree.go:230-244 `Enumerate`, 330-361 `enumerate`: the pairs in the order they are sent. -/
def Enumerate (t : Option (Tree V)) : List (IPNet × V) :=
  match t with
  | none => []
  | some t => (Num.Enumerate t.root32).map (fun n => (key4 n, n.value)) ++ (Num.Enumerate t.root64).flatMap enum6

/-! ## UpdateDescendants

The callback is a function with a state, `cb state key value = ((newValue, shouldUpdate), newState)`.  Nodes are updated
in place by Go; this model returns the tree as it is afterwards (the pointer-level model is in `Verif/IPHeap`).  The
enumerating goroutine reads only `Leaf` and `chld` of the nodes, never `Value`, so the updates do not disturb it. -/

section
variable {w : Nat} {W σ : Type}
omit [Inhabited V]

/-- The loop `for n := range t.Enumerate()` with `n.Value` replaced by the body's result. -/
def updWalk (f : ND w W → σ → W × σ) : NTree w W → σ → NTree w W × σ
  | .nil, s => (.nil, s)
  | .node n l r, s =>
    let a := if n.leaf then f n s else (n.value, s)
    let x := updWalk f l a.2
    let y := updWalk f r x.2
    (.node { n with value := a.1 } x.1 y.1, y.2)

/-- The same loop after `if target.Leaf { <-nodesCh }`: the target itself is skipped (a target that is no leaf is not
sent in the first place).  iptree/iptree.go:125-137,157-165,168-181. -/
def updDesc (f : ND w W → σ → W × σ) : NTree w W → σ → NTree w W × σ
  | .nil, s => (.nil, s)
  | .node n l r, s =>
    let x := updWalk f l s
    let y := updWalk f r x.2
    (.node n x.1 y.1, y.2)

/-- Apply `g` to the node `FindNode(key, bits)` returns, in place.  Follows numtree/node64.go:323-349 `exactMatch`. -/
def updTarget [KeySize w] (g : NTree w W → σ → NTree w W × σ) : NTree w W → BitVec w → Nat → σ → NTree w W × σ
  | .nil, _, _, s => (.nil, s)
  | .node n l r, key, bits, s =>
    if n.bits > bits then (.node n l r, s)
    else if n.bits = bits then
      if n.leaf && agree n.key key n.bits then g (.node n l r) s else (.node n l r, s)
    else if !agree n.key key n.bits then (.node n l r, s)
    else if branch key n.bits then (.node n l (updTarget g r key bits s).1, (updTarget g r key bits s).2)
    else (.node n (updTarget g l key bits s).1 r, (updTarget g l key bits s).2)

/-- iptree/iptree.go:133-136 and 112-115: call back and keep or replace the value. -/
def callBack (cb : σ → IPNet → V → (V × Bool) × σ) (key : IPNet) (v : V) (s : σ) : V × σ :=
  (if (cb s key v).1.2 then (cb s key v).1.1 else v, (cb s key v).2)

/-- iptree/iptree.go:172-181, body of the loop over `root64`: a nested tree is walked completely (with `updateNode64`,
lines 96-116), another value is passed to the callback. -/
def upd6 (cb : σ → IPNet → V → (V × Bool) × σ) (n : ND 64 (TV V)) (s : σ) : TV V × σ :=
  match n.value with
  | .sub t => (.sub (updWalk (fun m => callBack cb (key6s n.key m) m.value) t s).1, (updWalk (fun m => callBack cb (key6s n.key m) m.value) t s).2)
  | .user v => (.user (callBack cb (key6 n) v s).1, (callBack cb (key6 n) v s).2)

/-- iptree/iptree.go:147-165: the target found in `root64` holds a nested tree. -/
def updSub (cb : σ → IPNet → V → (V × Bool) × σ) (k : Pair64) (s2 : NTree 64 V) (s : σ) : NTree 64 V × σ :=
  let f := fun (m : ND 64 V) => callBack cb (key6s k.msKey m) m.value
  match s2 with
  | .nil => (.nil, s)
  | .node m l r =>
    if m.key = k.lsKey ∧ m.bits = k.lsBits then updDesc f (.node m l r) s
    else updTarget (updDesc f) (.node m l r) k.lsKey k.lsBits s

/-- iptree/iptree.go:141-182 from the found target on. -/
def updTarget6 (cb : σ → IPNet → V → (V × Bool) × σ) (k : Pair64) (target : NTree 64 (TV V)) (s : σ) : NTree 64 (TV V) × σ :=
  match target with
  | .nil => (.nil, s)
  | .node n l r =>
    match n.value with
    | .sub s2 => (.node { n with value := .sub (updSub cb k s2 s).1 } l r, (updSub cb k s2 s).2)
    | .user _ => updDesc (upd6 cb) (.node n l r) s

/-- iptree/iptree.go:119-183 `UpdateDescendants`; `none` is a panic (nil network, or nil tree with a valid network).
A nil nested tree would also panic at line 148; it does not occur (`WF6`) and is left alone here. -/
def UpdateDescendants (cb : σ → IPNet → V → (V × Bool) × σ) (t : Option (Tree V)) (n : Option IPNet) (s : σ) :
    Option (Option (Tree V) × σ) :=
  match n with
  | none => none
  | some n =>
    match v4Key n with
    | some (key, bits) =>
      match t with
      | none => none
      | some t =>
        let r := updTarget (updDesc fun m => callBack cb (key4 m) m.value) t.root32 key (clamp 32 bits) s
        some (some ⟨r.1, t.root64⟩, r.2)
    | none =>
      match v6Pair n with
      | none => some (t, s)
      | some k =>
        match t with
        | none => none
        | some t =>
          let r := updTarget (updTarget6 cb k) t.root64 k.msKey (clamp 64 k.msBits) s
          some (some ⟨t.root32, r.1⟩, r.2)

end

end Verif.IP
