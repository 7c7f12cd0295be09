import Verif.Heap.Prog
import Verif.Num.Model

/-!
# Pointer-level model of `numtree`

The functions of numtree/node32.go (and node64.go, and the generated copies in uintX/iptree*/node32.go, node64.go,
node64s.go) as programs over a memory of nodes, statement by statement.  The cell payload is `ND w V`
(`Key`, `Bits`, `Leaf`, `Value`), the two pointers are `chld`.  Recursive functions and loops carry a bound `f` on the
number of levels; the theorems hold for every bound above the height of the tree, and every reachable tree has height
at most `w + 1`.
-/

namespace Verif.NumHeap
open Verif.Heap Verif.Heap.Prog Verif.Num

variable {w : Nat} {V : Type} [KeySize w]

/-- `chld = other.chld` -/
def setChld (c n : Cell (ND w V)) : Cell (ND w V) := { c with c0 := n.c0, c1 := n.c1 }

/-- numtree/node32.go:446-452 `newNode32`, node64.go:386-392. -/
def newNode (d : ND w V) : Prog (ND w V) Addr := new ⟨d, none, none⟩

section
variable [Inhabited V]

/-- numtree/node32.go:197-250 `insert`, node64.go:188-220. -/
def insertP : Nat → Ptr → Addr → Prog (ND w V) Ptr
  | 0, _, _ => .stop .fuel
  | f + 1, n, c =>
    match n with
    | none => pure (some c)
    | some n => do
      let nc ← load (some n)
      let cc ← load (some c)
      let bits := ncsb nc.d.key nc.d.bits cc.d.key cc.d.bits
      if bits < nc.d.bits then
        let br := branch nc.d.key bits
        if bits = cc.d.bits then
          upd (some c) (·.setChild br (some n))
          pure (some c)
        else
          let m ← newNode { key := cc.d.key &&& mask bits, bits := bits, leaf := false, value := default }
          upd (some m) (·.setChild br (some n))
          upd (some m) (·.setChild (!br) (some c))
          pure (some m)
      else if cc.d.bits = nc.d.bits then
        upd (some c) (setChld · nc)
        pure (some c)
      else
        let m ← newNode nc.d
        upd (some m) (setChld · nc)
        let br := branch cc.d.key bits
        let mc ← load (some m)
        let x ← insertP f (mc.child br) c
        upd (some m) (·.setChild br x)
        pure (some m)

/-- Loop of numtree/node32.go:260-304 `inplaceInsert`, node64.go:230-274. -/
def inplaceLoop : Nat → BitVec w → Nat → V → Ptr → Ptr → Bool → Ptr → Prog (ND w V) Ptr
  | 0, _, _, _, _, _, _, _ => .stop .fuel
  | f + 1, key, sbits, value, r, p, br, n =>
    match n with
    | none => do
      let n ← newNode { key := key, bits := sbits, leaf := true, value := value }
      if p = none then pure (some n)
      else
        upd p (·.setChild br (some n))
        pure r
    | some n => do
      let nc ← load (some n)
      let cbits := ncsb nc.d.key nc.d.bits key sbits
      if cbits < nc.d.bits then
        let pBranch := br
        let br := branch nc.d.key cbits
        let m ←
          if cbits = sbits then do
            let m ← newNode { key := key, bits := sbits, leaf := true, value := value }
            upd (some m) (·.setChild br (some n))
            pure m
          else do
            let m ← newNode { key := key &&& mask cbits, bits := cbits, leaf := false, value := default }
            let x ← newNode { key := key, bits := sbits, leaf := true, value := value }
            upd (some m) (·.setChild (!br) (some x))
            pure m
        upd (some m) (·.setChild br (some n))
        if p = none then pure (some m)
        else
          upd p (·.setChild pBranch (some m))
          pure r
      else if sbits = nc.d.bits then
        upd (some n) fun c => { c with d := { c.d with key := key } }
        upd (some n) fun c => { c with d := { c.d with leaf := true } }
        upd (some n) fun c => { c with d := { c.d with value := value } }
        pure r
      else
        let br := branch key cbits
        inplaceLoop f key sbits value r (some n) br (nc.child br)

/-- numtree/node32.go:252-305 `inplaceInsert`, node64.go:222-275. -/
def inplaceInsertP (f : Nat) (n : Ptr) (key : BitVec w) (sbits : Nat) (value : V) : Prog (ND w V) Ptr :=
  inplaceLoop f key sbits value n none false n

/-- numtree/node32.go:64-73 `Insert`, node64.go:73-81. -/
def InsertP (f : Nat) (n : Ptr) (key : BitVec w) (bits : Int) (value : V) : Prog (ND w V) Ptr := do
  let c ← newNode { key := key, bits := clamp w bits, leaf := true, value := value }
  insertP f n c

/-- numtree/node32.go:76-85 `InplaceInsert`, node64.go:84-93. -/
def InplaceInsertP (f : Nat) (n : Ptr) (key : BitVec w) (bits : Int) (value : V) : Prog (ND w V) Ptr :=
  inplaceInsertP f n key (clamp w bits) value
end

/-- numtree/node32.go:322-361 `match`, node64.go:291-321. -/
def matchP : Nat → Ptr → BitVec w → Nat → Prog (ND w V) Ptr
  | 0, _, _, _ => .stop .fuel
  | f + 1, n, key, bits => do
    let nc ← load n
    if nc.d.bits > bits then pure none
    else if nc.d.bits = bits then
      if nc.d.leaf && agree nc.d.key key nc.d.bits then pure n else pure none
    else if !agree nc.d.key key nc.d.bits then pure none
    else
      let c := nc.child (branch key nc.d.bits)
      let r ← ifNotNil c none (matchP f c key bits)
      if r ≠ none then pure r
      else if nc.d.leaf then pure n
      else pure none

/-- numtree/node32.go:363-397 `exactMatch`, node64.go:323-349. -/
def exactMatchP : Nat → Ptr → BitVec w → Nat → Prog (ND w V) Ptr
  | 0, _, _, _ => .stop .fuel
  | f + 1, n, key, bits => do
    let nc ← load n
    if nc.d.bits > bits then pure none
    else if nc.d.bits = bits then
      if nc.d.leaf && agree nc.d.key key nc.d.bits then pure n else pure none
    else if !agree nc.d.key key nc.d.bits then pure none
    else
      let c := nc.child (branch key nc.d.bits)
      let r ← ifNotNil c none (exactMatchP f c key bits)
      if r ≠ none then pure r
      else pure none

/-- numtree/node32.go:399-444 `del`, node64.go:351-384. -/
def delP : Nat → Ptr → BitVec w → Nat → Prog (ND w V) (Ptr × Bool)
  | 0, _, _, _ => .stop .fuel
  | f + 1, n, key, bits => do
    let nc ← load n
    if bits ≤ nc.d.bits then
      if agree nc.d.key key bits then pure (none, true) else pure (n, false)
    else if !agree nc.d.key key nc.d.bits then pure (n, false)
    else
      let br := branch key nc.d.bits
      let c := nc.child br
      if c = none then pure (n, false)
      else
        let x ← delP f c key bits
        if !x.2 then pure (n, false)
        else if x.1 = none && !nc.d.leaf then pure (nc.child (!br), true)
        else
          let m ← newNode nc.d
          upd (some m) (setChld · nc)
          upd (some m) (·.setChild br x.1)
          pure (some m, true)

/-- numtree/node32.go:307-320 `enumerate`, node64.go:277-289: payloads of the nodes sent, in order (read when sent). -/
def enumerateP : Nat → Ptr → Prog (ND w V) (List (ND w V))
  | 0, _ => .stop .fuel
  | f + 1, n => do
    let nc ← load n
    let a ← ifNotNil nc.c0 [] (enumerateP f nc.c0)
    let b ← ifNotNil nc.c1 [] (enumerateP f nc.c1)
    pure ((if nc.d.leaf then [nc.d] else []) ++ a ++ b)

/-- numtree/node32.go:107-127 `Match`, node64.go:113-130. -/
def MatchP (f : Nat) (n : Ptr) (key : BitVec w) (bits : Int) : Prog (ND w V) (Option V) :=
  if n = none then pure none
  else do
    let r ← matchP f n key (clamp w bits)
    if r = none then pure none
    else
      let rc ← load r
      pure (some rc.d.value)

/-- numtree/node32.go:144-164 `FindNode`, node64.go:141-158. -/
def FindNodeP (f : Nat) (n : Ptr) (key : BitVec w) (bits : Int) : Prog (ND w V) Ptr :=
  if n = none then pure none
  else do
    let r ← exactMatchP f n key (clamp w bits)
    if r = none then pure none
    else pure r

/-- numtree/node32.go:134-142 `ExactMatch`, node64.go:133-139. -/
def ExactMatchP (f : Nat) (n : Ptr) (key : BitVec w) (bits : Int) : Prog (ND w V) (Option V) := do
  let r ← FindNodeP f n key bits
  if r = none then pure none
  else
    let rc ← load r
    pure (some rc.d.value)

/-- numtree/node32.go:167-182 `Delete`, node64.go:161-173. -/
def DeleteP (f : Nat) (n : Ptr) (key : BitVec w) (bits : Int) : Prog (ND w V) (Ptr × Bool) :=
  if n = none then pure (n, false)
  else delP f n key (clamp w bits)

/-- numtree/node32.go:88-104 `Enumerate`, node64.go:96-110. -/
def EnumerateP (f : Nat) (n : Ptr) : Prog (ND w V) (List (ND w V)) :=
  if n = none then pure [] else enumerateP f n

end Verif.NumHeap
