import Verif.NumHeap.Model
import Verif.UIP.Model
import Verif.Heap.Lift

/-!
# Pointer-level model of uintX/iptree8/iptree.go (and its copies for 16, 32, 64 bits)

`Tree`, `node32`, `node64` and `node64s` objects live in one memory.  The cell of a `Tree` has no payload; its two pointers are
`root32` and `root64`.  The value of a `node64s` is a pointer to the root of a nested tree, whose nodes are `node64`s in the same
memory.  `node32.go`, `node64.go` and `node64s.go` are the algorithms of numtree with typed values, so their calls are the programs
of `Verif/NumHeap` used in this memory.

Simplifications beyond those of `Verif/UIP/Model.lean` and `Verif/NumHeap/Model.lean`: the goroutine and channels of
`Enumerate` are left out, its walk reads a node when it is sent; `uintX` values are an arbitrary type `V`.
-/

namespace Verif.UIPHeap
open Verif Verif.Heap Verif.Heap.Prog Verif.Num Verif.NumHeap Verif.IP

/-- Payload of a cell: a uintX/iptree8/node32.go `node32`, a uintX/iptree8/node64.go `node64`, a uintX/iptree8/node64s.go:11-22 `node64s` or a
uintX/iptree8/iptree.go:19-22 `Tree`. -/
inductive UD (V : Type) where
  | n32 (d : ND 32 V)
  | n64 (d : ND 64 V)
  | n64s (d : ND 64 Ptr)
  | tree
  deriving DecidableEq, Repr

variable {V : Type}

/-- The `node32` cells. -/
def k32 : Kind (ND 32 V) (UD V) where
  inj := .n32
  prj
    | .n32 d => some d
    | _ => none
  prj_inj _ := rfl
  inj_prj e d h := by cases e <;> simp at h; rw [h]

/-- The `node64` cells. -/
def k64 : Kind (ND 64 V) (UD V) where
  inj := .n64
  prj
    | .n64 d => some d
    | _ => none
  prj_inj _ := rfl
  inj_prj e d h := by cases e <;> simp at h; rw [h]

/-- The `node64s` cells. -/
def k64s : Kind (ND 64 Ptr) (UD V) where
  inj := .n64s
  prj
    | .n64s d => some d
    | _ => none
  prj_inj _ := rfl
  inj_prj e d h := by cases e <;> simp at h; rw [h]

/-- The `Tree` cells. -/
def kTree : Kind Unit (UD V) where
  inj _ := .tree
  prj
    | .tree => some ()
    | _ => none
  prj_inj _ := rfl
  inj_prj e d h := by cases e <;> simp at h; rfl

/-- A call on `node32` cells. -/
abbrev on32 {α : Type} (p : Prog (ND 32 V) α) : Prog (UD V) α := p.lift k32
/-- A call on `node64` cells. -/
abbrev on64 {α : Type} (p : Prog (ND 64 V) α) : Prog (UD V) α := p.lift k64
/-- A call on `node64s` cells. -/
abbrev on64s {α : Type} (p : Prog (ND 64 Ptr) α) : Prog (UD V) α := p.lift k64s

/-- The fields of `*t`: nil panics. -/
def rootsP (t : Ptr) : Prog (UD V) (Ptr × Ptr) := (do
  let c ← load t
  pure (c.c0, c.c1) : Prog Unit (Ptr × Ptr)).lift kTree

/-- `&Tree{root32: r32, root64: r64}` -/
def newTreeP (r32 r64 : Ptr) : Prog (UD V) Ptr := (do
  let a ← new ⟨(), r32, r64⟩
  pure (some a) : Prog Unit Ptr).lift kTree

/-- uintX/iptree8/iptree.go:43-51: the roots, nil for a nil tree. -/
def rootsOrNilP (t : Ptr) : Prog (UD V) (Ptr × Ptr) :=
  if t ≠ none then rootsP t else pure (none, none)

/-- `t.root32 = r` -/
def setRoot32 (t r : Ptr) : Prog (UD V) Unit := (upd t fun c => { c with c0 := r } : Prog Unit Unit).lift kTree
/-- `t.root64 = r` -/
def setRoot64 (t r : Ptr) : Prog (UD V) Unit := (upd t fun c => { c with c1 := r } : Prog Unit Unit).lift kTree

section
variable [Inhabited V]

/-- uintX/iptree8/iptree.go:38-73 `InsertNet`; the zero value of `v` in line 62 is nil. -/
def InsertNetP (f : Nat) (t : Ptr) (n : Option IPNet) (value : V) : Prog (UD V) Ptr :=
  match n with
  | none => pure t
  | some n => do
    let r ← rootsOrNilP t
    match v4Key n with
    | some (key, bits) => do
      let x ← on32 (InsertP f r.1 key bits value)
      newTreeP x r.2
    | none =>
      match v6Pair n with
      | some k => do
        let v ← on64s (ExactMatchP f r.2 k.msKey k.msBits)
        let s ← on64 (InsertP f (v.getD none) k.lsKey k.lsBits value)
        let x ← on64s (InsertP f r.2 k.msKey k.msBits s)
        newTreeP r.1 x
      | none => pure t

/-- uintX/iptree8/iptree.go:97-99 `InsertIP`. -/
def InsertIPP (f : Nat) (t : Ptr) (ip : Bytes) (value : V) : Prog (UD V) Ptr := InsertNetP f t (newIPNetFromIP ip) value

/-- uintX/iptree8/iptree.go:76-94 `InplaceInsertNet`. -/
def InplaceInsertNetP (f : Nat) (t : Ptr) (n : Option IPNet) (value : V) : Prog (UD V) Unit :=
  match n with
  | none => pure ()
  | some n =>
    match v4Key n with
    | some (key, bits) => do
      let r ← rootsP t
      let x ← on32 (InplaceInsertP f r.1 key bits value)
      setRoot32 t x
    | none =>
      match v6Pair n with
      | some k => do
        let r ← rootsP t
        let v ← on64s (ExactMatchP f r.2 k.msKey k.msBits)
        match v with
        | some v => do
          let s ← on64 (InplaceInsertP f v k.lsKey k.lsBits value)
          if s ≠ v then
            let r ← rootsP t
            let x ← on64s (InplaceInsertP f r.2 k.msKey k.msBits s)
            setRoot64 t x
          else pure ()
        | none => do
          let r ← rootsP t
          let s ← on64 (InplaceInsertP f none k.lsKey k.lsBits value)
          let x ← on64s (InplaceInsertP f r.2 k.msKey k.msBits s)
          setRoot64 t x
      | none => pure ()

/-- uintX/iptree8/iptree.go:102-104 `InplaceInsertIP`. -/
def InplaceInsertIPP (f : Nat) (t : Ptr) (ip : Bytes) (value : V) : Prog (UD V) Unit := InplaceInsertNetP f t (newIPNetFromIP ip) value

/-- uintX/iptree8/iptree.go:161-188 `DeleteByNet`. -/
def DeleteByNetP (f : Nat) (t : Ptr) (n : Option IPNet) : Prog (UD V) (Ptr × Bool) :=
  if t = none then pure (t, false)
  else
    match n with
    | none => pure (t, false)
    | some n =>
      match v4Key n with
      | some (key, bits) => do
        let r ← rootsP t
        let x ← on32 (DeleteP f r.1 key bits)
        if x.2 then
          let r ← rootsP t
          let t' ← newTreeP x.1 r.2
          pure (t', true)
        else pure (t, false)
      | none =>
        match v6Pair n with
        | some k => do
          let r ← rootsP t
          let v ← on64s (ExactMatchP f r.2 k.msKey k.msBits)
          match v with
          | none => pure (t, false)
          | some v => do
            let y ← on64 (DeleteP f v k.lsKey k.lsBits)
            if y.2 then
              let r ← rootsP t
              if y.1 = none then
                let x ← on64s (DeleteP f r.2 k.msKey k.msBits)
                let t' ← newTreeP r.1 x.1
                pure (t', true)
              else
                let x ← on64s (InsertP f r.2 k.msKey k.msBits y.1)
                let t' ← newTreeP r.1 x
                pure (t', true)
            else pure (t, false)
        | none => pure (t, false)

/-- uintX/iptree8/iptree.go:191-193 `DeleteByIP`. -/
def DeleteByIPP (f : Nat) (t : Ptr) (ip : Bytes) : Prog (UD V) (Ptr × Bool) := DeleteByNetP f t (newIPNetFromIP ip)
end

/-- uintX/iptree8/iptree.go:124-153 `GetByNet`. -/
def GetByNetP (f : Nat) (t : Ptr) (n : Option IPNet) : Prog (UD V) (Option V) :=
  if t = none then pure none
  else
    match n with
    | none => pure none
    | some n =>
      match v4Key n with
      | some (key, bits) => do
        let r ← rootsP t
        on32 (MatchP f r.1 key bits)
      | none =>
        match v6Pair n with
        | some k => do
          let r ← rootsP t
          let s ← on64s (MatchP f r.2 k.msKey k.msBits)
          match s with
          | none => pure none
          | some s => do
            let v ← on64 (MatchP f s k.lsKey k.lsBits)
            match v with
            | some v => pure (some v)
            | none =>
              if k.msBits < 64 then pure none
              else do
                let r ← rootsP t
                let s ← on64s (MatchP f r.2 k.msKey ((k.msBits : Int) - 1))
                match s with
                | none => pure none
                | some s => on64 (MatchP f s k.lsKey k.lsBits)
        | none => pure none

/-- uintX/iptree8/iptree.go:156-158 `GetByIP`. -/
def GetByIPP (f : Nat) (t : Ptr) (ip : Bytes) : Prog (UD V) (Option V) := GetByNetP f t (newIPNetFromIP ip)

/-- uintX/iptree8/iptree.go:205-214, key of a node `m` of the nested tree under `n` (`UIP.key6` for nodes in memory). -/
def key6P (n : ND 64 Ptr) (m : ND 64 V) : IPNet :=
  ⟨maskIP (unpack64 n.key ++ unpack64 m.key) (cidrMask (n.bits + m.bits) 128), cidrMask (n.bits + m.bits) 128⟩

/-- uintX/iptree8/iptree.go:205-216, what is sent for the nodes of `root64`. -/
def enum6P (f : Nat) : List (ND 64 Ptr) → Prog (UD V) (List (IPNet × V))
  | [] => pure []
  | n :: ns => do
    let l ← on64 (EnumerateP f n.value)
    let rest ← enum6P f ns
    pure (l.map (fun m => (key6P n m, m.value)) ++ rest)

/-- uintX/iptree8/iptree.go:107-121 `Enumerate`, 195-217 `enumerate`: the pairs in the order they are sent. -/
def EnumerateTreeP (f : Nat) (t : Ptr) : Prog (UD V) (List (IPNet × V)) :=
  if t = none then pure []
  else do
    let r ← rootsP t
    let a ← on32 (EnumerateP f r.1)
    let r ← rootsP t
    let b ← on64s (EnumerateP f r.2)
    let c ← enum6P f b
    pure (a.map (fun n => (key4 n, n.value)) ++ c)

end Verif.UIPHeap
