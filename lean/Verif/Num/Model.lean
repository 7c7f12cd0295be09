import Verif.Core.BTree

/-!
# Functional model of `numtree`

`numtree/node32.go` and `numtree/node64.go` are the same program at two widths; the model is generic in the width
`w` and takes the width's mask table as a parameter (`KeySize w`), with the two literal tables of the repository as
instances.  The `uintX/iptree*/node32.go`, `node64.go` and `node64s.go` files contain the same functions with another
value type; they are covered by the type parameter `V`.

Simplifications: `Value interface{}` is a type `V` with a distinguished `default` playing nil (or 0 in uintX);
`Bits uint8` is a `Nat` (it never exceeds `w`, see `Verif.Num.WF`); a pointer to a node is the subtree itself
(the pointer-level model is in `Verif/NumHeap`); a result pair `(value, true)` / `(nil, false)` is `some value` /
`none`.
-/

namespace Verif.Num

/-- The mask table of a key width (`masks32`, `masks64`). -/
class KeySize (w : Nat) where
  masks : List (BitVec w)

/-- numtree/node32.go:12-23 `masks32` (literal table). -/
instance keySize32 : KeySize 32 where
  masks := [
    0x00000000#32, 0x80000000#32, 0xc0000000#32, 0xe0000000#32,
    0xf0000000#32, 0xf8000000#32, 0xfc000000#32, 0xfe000000#32,
    0xff000000#32, 0xff800000#32, 0xffc00000#32, 0xffe00000#32,
    0xfff00000#32, 0xfff80000#32, 0xfffc0000#32, 0xfffe0000#32,
    0xffff0000#32, 0xffff8000#32, 0xffffc000#32, 0xffffe000#32,
    0xfffff000#32, 0xfffff800#32, 0xfffffc00#32, 0xfffffe00#32,
    0xffffff00#32, 0xffffff80#32, 0xffffffc0#32, 0xffffffe0#32,
    0xfffffff0#32, 0xfffffff8#32, 0xfffffffc#32, 0xfffffffe#32,
    0xffffffff#32]

/-- numtree/node64.go:11-30 `masks64` (literal table). -/
instance keySize64 : KeySize 64 where
  masks := [
    0x0000000000000000#64, 0x8000000000000000#64, 0xc000000000000000#64, 0xe000000000000000#64,
    0xf000000000000000#64, 0xf800000000000000#64, 0xfc00000000000000#64, 0xfe00000000000000#64,
    0xff00000000000000#64, 0xff80000000000000#64, 0xffc0000000000000#64, 0xffe0000000000000#64,
    0xfff0000000000000#64, 0xfff8000000000000#64, 0xfffc000000000000#64, 0xfffe000000000000#64,
    0xffff000000000000#64, 0xffff800000000000#64, 0xffffc00000000000#64, 0xffffe00000000000#64,
    0xfffff00000000000#64, 0xfffff80000000000#64, 0xfffffc0000000000#64, 0xfffffe0000000000#64,
    0xffffff0000000000#64, 0xffffff8000000000#64, 0xffffffc000000000#64, 0xffffffe000000000#64,
    0xfffffff000000000#64, 0xfffffff800000000#64, 0xfffffffc00000000#64, 0xfffffffe00000000#64,
    0xffffffff00000000#64, 0xffffffff80000000#64, 0xffffffffc0000000#64, 0xffffffffe0000000#64,
    0xfffffffff0000000#64, 0xfffffffff8000000#64, 0xfffffffffc000000#64, 0xfffffffffe000000#64,
    0xffffffffff000000#64, 0xffffffffff800000#64, 0xffffffffffc00000#64, 0xffffffffffe00000#64,
    0xfffffffffff00000#64, 0xfffffffffff80000#64, 0xfffffffffffc0000#64, 0xfffffffffffe0000#64,
    0xffffffffffff0000#64, 0xffffffffffff8000#64, 0xffffffffffffc000#64, 0xffffffffffffe000#64,
    0xfffffffffffff000#64, 0xfffffffffffff800#64, 0xfffffffffffffc00#64, 0xfffffffffffffe00#64,
    0xffffffffffffff00#64, 0xffffffffffffff80#64, 0xffffffffffffffc0#64, 0xffffffffffffffe0#64,
    0xfffffffffffffff0#64, 0xfffffffffffffff8#64, 0xfffffffffffffffc#64, 0xfffffffffffffffe#64,
    0xffffffffffffffff#64]

/-- Table access `masks[b]`.  Go would panic out of range; the index is at most `w` in every reachable state
(`Verif.Num.WF`), and the tables have `w+1` entries (`LawfulKeySize`). -/
def mask {w : Nat} [KeySize w] (b : Nat) : BitVec w := (KeySize.masks (w := w)).getD b 0

/-- Node payload: the fields of `Node32`/`Node64` other than `chld`.
numtree/node32.go:26-37, node64.go:33-44; uintX/iptree8/node32.go:27-38, node64s.go:11-22. -/
structure ND (w : Nat) (V : Type) where
  key : BitVec w
  bits : Nat
  leaf : Bool
  value : V
  deriving Repr, DecidableEq

/-- A tree: nil pointer or node. -/
abbrev NTree (w : Nat) (V : Type) := BTree (ND w V)

variable {w : Nat} {V : Type} [KeySize w]

/-- The bit right after the first `b` ones: `(key >> (KeyBitSize - 1 - b)) & 1` used as a child index.
numtree/node32.go:212,245,264,294,346,387,417; node64.go:195,216,234,264,308,340,364. -/
def branch (key : BitVec w) (b : Nat) : Bool := (key >>> (w - 1 - b)) &&& 1#w == 1#w

/-- Number of common significant bits: `LeadingZeros((n.Key ^ c.Key) | ^masks[n.Bits] | ^masks[c.Bits])`.
numtree/node32.go:206,261; node64.go:193,231. `bits.LeadingZeros` is `BitVec.clz`. -/
def ncsb (k1 : BitVec w) (b1 : Nat) (k2 : BitVec w) (b2 : Nat) : Nat :=
  ((k1 ^^^ k2) ||| ~~~(mask b1) ||| ~~~(mask b2)).clz.toNat

/-- `(n.Key^key)&masks[b] == 0`. numtree/node32.go:332,340,373,381,403,411; node64.go:297,304,329,336,353,360. -/
def agree (k1 k2 : BitVec w) (b : Nat) : Bool := (k1 ^^^ k2) &&& mask b == 0#w

/-- The bits adjustment at the head of every public method. numtree/node32.go:65-70,77-82,114-119,151-156,174-179;
node64.go:74-78,85-90,118-122,146-150,166-170. -/
def clamp (w : Nat) (bits : Int) : Nat :=
  if bits < 0 then 0 else if bits > (w : Int) then w else bits.toNat

variable [Inhabited V]

/-- numtree/node32.go:197-250 `insert`, node64.go:188-220.  `c` is the payload of the fresh candidate node; Go stores
children directly into that fresh node, here the resulting node is built instead. -/
def insert : NTree w V → ND w V → NTree w V
  | .nil, c => .node c .nil .nil
  | .node n l r, c =>
    let bits := ncsb n.key n.bits c.key c.bits
    if bits < n.bits then
      let br := branch n.key bits
      if bits = c.bits then
        BTree.mk2 c br (.node n l r) .nil
      else
        BTree.mk2 { key := c.key &&& mask bits, bits := bits, leaf := false, value := default } br
          (.node n l r) (.node c .nil .nil)
    else if c.bits = n.bits then
      .node c l r
    else if branch c.key bits then
      .node n l (insert r c)
    else
      .node n (insert l c) r

omit [Inhabited V] in
/-- numtree/node32.go:322-361 `match`, node64.go:291-321; result is the payload of the located node.
The Go caller guards nil children; here nil yields none. -/
def matchN : NTree w V → BitVec w → Nat → Option (ND w V)
  | .nil, _, _ => none
  | .node n l r, key, bits =>
    if n.bits > bits then none
    else if n.bits = bits then
      if n.leaf && agree n.key key n.bits then some n else none
    else if !agree n.key key n.bits then none
    else
      match (if branch key n.bits then matchN r key bits else matchN l key bits) with
      | some x => some x
      | none => if n.leaf then some n else none

omit [Inhabited V] in
/-- numtree/node32.go:363-397 `exactMatch`, node64.go:323-349; returns the located subtree (`FindNode` hands out the
node pointer, whose children `UpdateDescendants` walks). -/
def exactMatch : NTree w V → BitVec w → Nat → NTree w V
  | .nil, _, _ => .nil
  | .node n l r, key, bits =>
    if n.bits > bits then .nil
    else if n.bits = bits then
      if n.leaf && agree n.key key n.bits then .node n l r else .nil
    else if !agree n.key key n.bits then .nil
    else if branch key n.bits then exactMatch r key bits
    else exactMatch l key bits

omit [Inhabited V] in
/-- numtree/node32.go:399-444 `del`, node64.go:351-384.  On `false` Go returns the receiver itself. -/
def del : NTree w V → BitVec w → Nat → NTree w V × Bool
  | .nil, _, _ => (.nil, false)
  | .node n l r, key, bits =>
    if bits ≤ n.bits then
      if agree n.key key bits then (.nil, true) else (.node n l r, false)
    else if !agree n.key key n.bits then (.node n l r, false)
    else if branch key n.bits then
      match del r key bits with
      | (_, false) => (.node n l r, false)
      | (c, true) => if c.isNil && !n.leaf then (l, true) else (.node n l c, true)
    else
      match del l key bits with
      | (_, false) => (.node n l r, false)
      | (c, true) => if c.isNil && !n.leaf then (r, true) else (.node n c r, true)

omit [KeySize w] [Inhabited V] in
/-- numtree/node32.go:307-320 `enumerate`, node64.go:277-289: nodes in the order they are sent. -/
def enumerate : NTree w V → List (ND w V)
  | .nil => []
  | .node n l r => (if n.leaf then [n] else []) ++ enumerate l ++ enumerate r

/-- numtree/node32.go:64-73 `Insert`, node64.go:73-81. -/
def Insert (t : NTree w V) (key : BitVec w) (bits : Int) (value : V) : NTree w V :=
  insert t { key := key, bits := clamp w bits, leaf := true, value := value }

omit [Inhabited V] in
/-- numtree/node32.go:107-127 `Match`, node64.go:113-130. -/
def Match (t : NTree w V) (key : BitVec w) (bits : Int) : Option V :=
  (matchN t key (clamp w bits)).map ND.value

omit [Inhabited V] in
/-- numtree/node32.go:144-164 `FindNode`, node64.go:141-158. -/
def FindNode (t : NTree w V) (key : BitVec w) (bits : Int) : NTree w V :=
  exactMatch t key (clamp w bits)

omit [Inhabited V] in
/-- numtree/node32.go:134-142 `ExactMatch`, node64.go:133-139. -/
def ExactMatch (t : NTree w V) (key : BitVec w) (bits : Int) : Option V :=
  match FindNode t key bits with
  | .nil => none
  | .node n _ _ => some n.value

omit [Inhabited V] in
/-- numtree/node32.go:167-182 `Delete`, node64.go:161-173. -/
def Delete (t : NTree w V) (key : BitVec w) (bits : Int) : NTree w V × Bool :=
  del t key (clamp w bits)

omit [KeySize w] [Inhabited V] in
/-- numtree/node32.go:88-104 `Enumerate`, node64.go:96-110: the sequence of values sent on the channel before it is
closed (the goroutine/channel protocol itself is `Verif/Chan`). -/
def Enumerate (t : NTree w V) : List (ND w V) := enumerate t

end Verif.Num
