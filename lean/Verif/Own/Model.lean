import Verif.IP.Model
import Verif.UIP.Model

/-!
# The byte slices behind the keys of iptree

Keys are `*net.IPNet` values whose fields are slices, that is, parts of arrays that several slices can share.  `enumerate` and
`updateNode64` use `append(MSIP[0:8], LSIP...)`, which writes into the array behind `MSIP` again and again.  This model has the arrays.
The code works beside a client who may change the arrays it has been given at any time.

Simplifications: arrays are named by numbers; a step reads or writes a whole slice; the nodes the loops range over are given as lists
(`Verif/Chan` and `Verif/Pipe` treat the channels).  The capacity `append` gives a new array is any number that is large enough.
-/

namespace Verif.Own
open Verif Verif.Num Verif.IP

/-- A Go slice: array, offset, length and capacity. -/
structure Slice where
  arr : Nat
  off : Nat
  len : Nat
  cap : Nat

/-- The bytes of a slice, given the bytes of its array. -/
def Slice.of (s : Slice) (b : Bytes) : Bytes := (b.drop s.off).take s.len

/-- `b` with `c` written at `off`. -/
def splice (b : Bytes) (off : Nat) (c : Bytes) : Bytes := b.take off ++ c ++ b.drop (off + c.length)

/-- Code that works on arrays and hands pairs of slices with a value to the client. -/
inductive Code (A : Type) where
  | done
  /-- a new array with this content -/
  | make (content : Bytes) (k : Nat → Code A)
  | read (arr : Nat) (k : Bytes → Code A)
  | write (arr off : Nat) (b : Bytes) (k : Code A)
  /-- `ch <- Pair{Key: &net.IPNet{IP: ip, Mask: mask}, Value: v}`, or a call of the callback with this pair -/
  | give (ip mask : Slice) (v : A) (k : Code A)

section
variable {A V : Type}

/-- A slice of a new array of the same length. -/
def fresh (b : Bytes) (k : Slice → Code A) : Code A := .make b fun a => k ⟨a, 0, b.length, b.length⟩

/-- `append(s, t...)`; `extra` is the capacity beyond what is needed. -/
def append (extra : Nat) (s t : Slice) (k : Slice → Code A) : Code A :=
  .read t.arr fun tb =>
    if s.len + t.len ≤ s.cap then .write s.arr (s.off + s.len) (t.of tb) (k { s with len := s.len + t.len })
    else .read s.arr fun sb =>
      .make (s.of sb ++ t.of tb ++ List.replicate extra 0) fun a => k ⟨a, 0, s.len + t.len, s.len + t.len + extra⟩

/-- `s[0:n]`. -/
def Slice.upto (s : Slice) (n : Nat) : Slice := { s with len := n }

/-- net/ip.go `IP.Mask` for address and mask of the same length: the result is a new array. -/
def mask (ip m : Slice) (k : Slice → Code A) : Code A :=
  .read ip.arr fun ib => .read m.arr fun mb => fresh (maskIP (ip.of ib) (m.of mb)) k

/-- net/ip.go `CIDRMask`. -/
def cidr (ones bits : Nat) (k : Slice → Code A) : Code A := fresh (cidrMask ones bits) k

/-- iptree/iptree.go:331-338, the first loop of `enumerate`; 128-136, the loop of `UpdateDescendants`; uintX/iptree8/iptree.go:196-203. -/
def loop4 : List (ND 32 V) → Code V → Code V
  | [], k => k
  | n :: ns, k => cidr n.bits 32 fun m => fresh (unpack32 n.key) fun u => mask u m fun ip => .give ip m n.value (loop4 ns k)

/-- iptree/iptree.go:341: `MSIP := append(unpackUint64ToIP(n.Key), make(net.IP, 8)...)`. -/
def msip (extra : Nat) (key : BitVec 64) (k : Slice → Code V) : Code V :=
  fresh (unpack64 key) fun u => fresh (List.replicate 8 0) fun z => append extra u z k

/-- iptree/iptree.go:343-350, the loop over a nested tree; 93-95 and 98-104 in `updateNode64`. -/
def loopSub (extra : Nat) (ms : Slice) (base : Nat) : List (ND 64 V) → Code V → Code V
  | [], k => k
  | n :: ns, k => fresh (unpack64 n.key) fun ls => cidr (base + n.bits) 128 fun m =>
      append extra (ms.upto 8) ls fun x => mask x m fun ip => .give ip m n.value (loopSub extra ms base ns k)

/-- iptree/iptree.go:340-360, the second loop of `enumerate`. -/
def loop6 (extra : Nat) : List (ND 64 (TV V)) → Code V → Code V
  | [], k => k
  | n :: ns, k => msip extra n.key fun ms =>
      match n.value with
      | .sub s => loopSub extra ms 64 (Num.Enumerate s) (loop6 extra ns k)
      | .user v => cidr n.bits 128 fun m => mask ms m fun ip => .give ip m v (loop6 extra ns k)

/-- iptree/iptree.go:230-244 `Enumerate`, 330-361 `enumerate`. -/
def enumCode (extra : Nat) (t : Option (IP.Tree V)) : Code V :=
  match t with
  | none => .done
  | some t => loop4 (Num.Enumerate t.root32) (loop6 extra (Num.Enumerate t.root64) .done)

/-- uintX/iptree8/iptree.go:205-215, the second loop of `enumerate`. -/
def uloop6 (extra : Nat) : List (ND 64 (NTree 64 V)) → Code V → Code V
  | [], k => k
  | n :: ns, k => msip extra n.key fun ms => loopSub extra ms n.bits (Num.Enumerate n.value) (uloop6 extra ns k)

/-- uintX/iptree8/iptree.go:107-121 `Enumerate`, 195-217 `enumerate`. -/
def uenumCode (extra : Nat) (t : Option (UIP.Tree V)) : Code V :=
  match t with
  | none => .done
  | some t => loop4 (Num.Enumerate t.root32) (uloop6 extra (Num.Enumerate t.root64) .done)

/-- iptree/iptree.go:161-164: `UpdateDescendants` below a target inside a nested tree; `MSIP` is made for every node.  `ns` are the nodes
it ranges over. -/
def updSub (extra : Nat) (key : BitVec 64) : List (ND 64 V) → Code V → Code V
  | [], k => k
  | n :: ns, k => msip extra key fun ms => loopSub extra ms 64 [n] (updSub extra key ns k)

/-- iptree/iptree.go:172-181: `UpdateDescendants` below a target of fewer than 64 bits.  For a user value `updateNode64` makes the address
itself (89-91). -/
def updTop (extra : Nat) : List (ND 64 (TV V)) → Code V → Code V
  | [], k => k
  | n :: ns, k =>
      match n.value with
      | .sub s => msip extra n.key fun ms => loopSub extra ms 64 (Num.Enumerate s) (updTop extra ns k)
      | .user v => msip extra n.key fun ip => cidr n.bits 128 fun m => mask ip m fun x => .give x m v (updTop extra ns k)

/-- What is left on the channel of `target.Enumerate()` after `if target.Leaf { <-nodesCh }`, iptree/iptree.go:125-128, 157-160, 168-171. -/
def below {w : Nat} {W : Type} : NTree w W → List (ND w W)
  | .nil => []
  | .node _ l r => Num.Enumerate l ++ Num.Enumerate r

/-- iptree/iptree.go:148-153, the target inside a nested tree. -/
def subTarget (k : Pair64) : NTree 64 V → NTree 64 V
  | .nil => .nil
  | .node m l r => if m.key = k.lsKey ∧ m.bits = k.lsBits then .node m l r else Num.FindNode (.node m l r) k.lsKey k.lsBits

/-- iptree/iptree.go:145-182, from the found target on. -/
def updCode6 (extra : Nat) (k : Pair64) : NTree 64 (TV V) → Code V
  | .nil => .done
  | .node n l r =>
    match n.value with
    | .sub s2 => updSub extra k.msKey (below (subTarget k s2)) .done
    | .user _ => updTop extra (below (.node n l r)) .done

/-- iptree/iptree.go:119-183 `UpdateDescendants`: the keys it makes for the callback; `none` is a panic. -/
def updCode (extra : Nat) (t : Option (IP.Tree V)) (n : Option IPNet) : Option (Code V) :=
  match n with
  | none => none
  | some n =>
    match v4Key n with
    | some (key, bits) => t.map fun t => loop4 (below (Num.FindNode t.root32 key bits)) .done
    | none =>
      match v6Pair n with
      | none => some .done
      | some k => t.map fun t => updCode6 extra k (Num.FindNode t.root64 k.msKey k.msBits)
end

/-! ## Running beside a client -/

/-- The arrays in memory. -/
abbrev Mem := Nat → Option Bytes

/-- Memory, the arrays the client may change, the code still to run, and what has been handed out: address and mask as they were at that
moment. -/
structure Conf (A : Type) where
  mem : Mem
  owned : Nat → Prop
  code : Code A
  log : List (IPNet × A)

/-- Memory with array `a` set. -/
def Mem.set (m : Mem) (a : Nat) (b : Bytes) : Mem := fun x => if x = a then some b else m x

/-- A step of the code. -/
inductive CodeStep {A : Type} : Conf A → Conf A → Prop where
  | make {m o c k log} (a : Nat) : m a = none → CodeStep ⟨m, o, .make c k, log⟩ ⟨m.set a c, o, k a, log⟩
  | read {m o a k log b} : m a = some b → CodeStep ⟨m, o, .read a k, log⟩ ⟨m, o, k b, log⟩
  | write {m o a off c k log b} : m a = some b → off + c.length ≤ b.length → CodeStep ⟨m, o, .write a off c k, log⟩ ⟨m.set a (splice b off c), o, k, log⟩
  | give {m o ip mask v k log bi bm} : m ip.arr = some bi → m mask.arr = some bm →
      CodeStep ⟨m, o, .give ip mask v k, log⟩ ⟨m, fun x => o x ∨ x = ip.arr ∨ x = mask.arr, k, log ++ [(⟨ip.of bi, mask.of bm⟩, v)]⟩

/-- The client changes its arrays (in any way; it need not even keep their length) and makes new ones. -/
inductive ClientStep {A : Type} : Conf A → Conf A → Prop where
  | any {m m' : Mem} {o o' : Nat → Prop} {code log} : (∀ a, ¬ o a → m a ≠ none → m' a = m a) → (∀ a, o a → m a ≠ none → m' a ≠ none) →
      (∀ a, o' a ↔ o a ∨ (m a = none ∧ m' a ≠ none)) →
      ClientStep ⟨m, o, code, log⟩ ⟨m', o', code, log⟩

/-- Any interleaving. -/
inductive Runs {A : Type} (c0 : Conf A) : Conf A → Prop where
  | refl : Runs c0 c0
  | code {c d} : Runs c0 c → CodeStep c d → Runs c0 d
  | client {c d} : Runs c0 c → ClientStep c d → Runs c0 d

/-- The array the next step of the code reads or writes. -/
def Touches {A : Type} : Code A → Nat → Prop
  | .read a _, x => x = a
  | .write a _ _ _, x => x = a
  | .give ip m _ _, x => x = ip.arr ∨ x = m.arr
  | _, _ => False

end Verif.Own
