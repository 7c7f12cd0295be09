import Verif.NumHeap.Model
import Verif.IP.Model
import Verif.Heap.Lift

/-!
# Pointer-level model of iptree/iptree.go

`Tree`, `numtree.Node32` and `numtree.Node64` objects live in one memory.  The cell of a `Tree` has no payload; its two
pointers are `root32` and `root64`.  A value of a `Node64` is a user value or a pointer to the root of a nested tree
(`subTree64`), whose nodes are in the same memory.  numtree calls are the programs of `Verif/NumHeap` used in this memory.

Simplifications beyond those of `Verif/IP/Model.lean` and `Verif/NumHeap/Model.lean`: the goroutine and channels of
`Enumerate` are left out, its walk reads a node when it is sent.
-/

namespace Verif.IPHeap
open Verif Verif.Heap Verif.Heap.Prog Verif.Num Verif.NumHeap Verif.IP

/-- `Value interface{}` of a `Node64`: anything, or iptree/iptree.go:33 `subTree64`. -/
inductive HV (V : Type) where
  | user (v : V)
  | sub (p : Ptr)
  deriving DecidableEq, Repr

instance {V : Type} [Inhabited V] : Inhabited (HV V) := ⟨.user default⟩

/-- Payload of a cell: a `numtree.Node32`, a `numtree.Node64` or an iptree/iptree.go:22-25 `Tree`. -/
inductive IPD (V : Type) where
  | n32 (d : ND 32 V)
  | n64 (d : ND 64 (HV V))
  | tree
  deriving DecidableEq, Repr

variable {V : Type}

/-- The `Node32` cells. -/
def k32 : Kind (ND 32 V) (IPD V) where
  inj := .n32
  prj
    | .n32 d => some d
    | _ => none
  prj_inj _ := rfl
  inj_prj e d h := by cases e <;> simp at h; rw [h]

/-- The `Node64` cells. -/
def k64 : Kind (ND 64 (HV V)) (IPD V) where
  inj := .n64
  prj
    | .n64 d => some d
    | _ => none
  prj_inj _ := rfl
  inj_prj e d h := by cases e <;> simp at h; rw [h]

/-- The `Tree` cells. -/
def kTree : Kind Unit (IPD V) where
  inj _ := .tree
  prj
    | .tree => some ()
    | _ => none
  prj_inj _ := rfl
  inj_prj e d h := by cases e <;> simp at h; rfl

/-- A numtree program on `Node32` cells. -/
abbrev on32 {α : Type} (p : Prog (ND 32 V) α) : Prog (IPD V) α := p.lift k32
/-- A numtree program on `Node64` cells. -/
abbrev on64 {α : Type} (p : Prog (ND 64 (HV V)) α) : Prog (IPD V) α := p.lift k64

/-- The fields of `*t`: nil panics. -/
def rootsP (t : Ptr) : Prog (IPD V) (Ptr × Ptr) := (do
  let c ← load t
  pure (c.c0, c.c1) : Prog Unit (Ptr × Ptr)).lift kTree

/-- `&Tree{root32: r32, root64: r64}` -/
def newTreeP (r32 r64 : Ptr) : Prog (IPD V) Ptr := (do
  let a ← new ⟨(), r32, r64⟩
  pure (some a) : Prog Unit Ptr).lift kTree

/-- iptree/iptree.go:47-55, 61-69: the roots, nil for a nil tree. -/
def rootsOrNilP (t : Ptr) : Prog (IPD V) (Ptr × Ptr) :=
  if t ≠ none then rootsP t else pure (none, none)

/-- `t.root32 = r` -/
def setRoot32 (t r : Ptr) : Prog (IPD V) Unit := (upd t fun c => { c with c0 := r } : Prog Unit Unit).lift kTree
/-- `t.root64 = r` -/
def setRoot64 (t r : Ptr) : Prog (IPD V) Unit := (upd t fun c => { c with c1 := r } : Prog Unit Unit).lift kTree

/-- iptree/iptree.go:76-86,197-206,301-308: the type switch on a found value, with its panic; nil if nothing was found. -/
def subP (v : Option (HV V)) : Prog (IPD V) Ptr :=
  match v with
  | none => pure none
  | some (.sub s) => pure s
  | some (.user _) => .stop .panic

section
variable [Inhabited V]

/-- iptree/iptree.go:41-92 `InsertNet`. -/
def InsertNetP (f : Nat) (t : Ptr) (n : Option IPNet) (value : V) : Prog (IPD V) Ptr :=
  match n with
  | none => pure t
  | some n =>
    match v4Key n with
    | some (key, bits) => do
      let r ← rootsOrNilP t
      let x ← on32 (InsertP f r.1 key bits value)
      newTreeP x r.2
    | none =>
      match v6Pair n with
      | some k => do
        let r ← rootsOrNilP t
        if k.msBits < 64 then
          let x ← on64 (InsertP f r.2 k.msKey k.msBits (.user value))
          newTreeP r.1 x
        else
          let v ← on64 (ExactMatchP f r.2 k.msKey k.msBits)
          let s ← subP v
          let s ← on64 (InsertP f s k.lsKey k.lsBits (.user value))
          let x ← on64 (InsertP f r.2 k.msKey k.msBits (.sub s))
          newTreeP r.1 x
      | none => pure t

/-- iptree/iptree.go:220-222 `InsertIP`. -/
def InsertIPP (f : Nat) (t : Ptr) (ip : Bytes) (value : V) : Prog (IPD V) Ptr := InsertNetP f t (newIPNetFromIP ip) value

/-- iptree/iptree.go:186-217 `InplaceInsertNet`. -/
def InplaceInsertNetP (f : Nat) (t : Ptr) (n : Option IPNet) (value : V) : Prog (IPD V) Unit :=
  match n with
  | none => pure ()
  | some n =>
    match v4Key n with
    | some (key, bits) => do
      let r ← rootsP t
      let x ← on32 (InplaceInsertP f r.1 key bits value)
      setRoot32 t x
    | none =>
      match v6Pair n with
      | some k =>
        if k.msBits < 64 then do
          let r ← rootsP t
          let x ← on64 (InplaceInsertP f r.2 k.msKey k.msBits (.user value))
          setRoot64 t x
        else do
          let r ← rootsP t
          let v ← on64 (ExactMatchP f r.2 k.msKey k.msBits)
          match v with
          | some v => do
            let s ← subP (some v)
            let newR ← on64 (InplaceInsertP f s k.lsKey k.lsBits (.user value))
            if newR ≠ s then
              let r ← rootsP t
              let x ← on64 (InplaceInsertP f r.2 k.msKey k.msBits (.sub newR))
              setRoot64 t x
            else pure ()
          | none => do
            let s ← on64 (InplaceInsertP f none k.lsKey k.lsBits (.user value))
            let r ← rootsP t
            let x ← on64 (InplaceInsertP f r.2 k.msKey k.msBits (.sub s))
            setRoot64 t x
      | none => pure ()

/-- iptree/iptree.go:225-227 `InplaceInsertIP`. -/
def InplaceInsertIPP (f : Nat) (t : Ptr) (ip : Bytes) (value : V) : Prog (IPD V) Unit := InplaceInsertNetP f t (newIPNetFromIP ip) value

/-- iptree/iptree.go:284-323 `DeleteByNet`. -/
def DeleteByNetP (f : Nat) (t : Ptr) (n : Option IPNet) : Prog (IPD V) (Ptr × Bool) :=
  if t = none then pure (t, false)
  else
    match n with
    | none => pure (t, false)
    | some n =>
      match v4Key n with
      | some (key, bits) => do
        let r ← rootsP t
        let x ← on32 (DeleteP f r.1 key bits)
        if x.2 then
          let t' ← newTreeP x.1 r.2
          pure (t', true)
        else pure (t, false)
      | none =>
        match v6Pair n with
        | some k => do
          let r ← rootsP t
          if k.msBits < 64 then
            let x ← on64 (DeleteP f r.2 k.msKey k.msBits)
            if x.2 then
              let t' ← newTreeP r.1 x.1
              pure (t', true)
            else pure (t, false)
          else
            let v ← on64 (ExactMatchP f r.2 k.msKey k.msBits)
            match v with
            | none => pure (t, false)
            | some v => do
              let s ← subP (some v)
              let y ← on64 (DeleteP f s k.lsKey k.lsBits)
              if y.2 then
                if y.1 = none then
                  let x ← on64 (DeleteP f r.2 k.msKey k.msBits)
                  let t' ← newTreeP r.1 x.1
                  pure (t', true)
                else
                  let x ← on64 (InsertP f r.2 k.msKey k.msBits (.sub y.1))
                  let t' ← newTreeP r.1 x
                  pure (t', true)
              else pure (t, false)
        | none => pure (t, false)

/-- iptree/iptree.go:326-328 `DeleteByIP`. -/
def DeleteByIPP (f : Nat) (t : Ptr) (ip : Bytes) : Prog (IPD V) (Ptr × Bool) := DeleteByNetP f t (newIPNetFromIP ip)
end

/-- iptree/iptree.go:247-276 `GetByNet`. -/
def GetByNetP (f : Nat) (t : Ptr) (n : Option IPNet) : Prog (IPD V) (Option (HV V)) :=
  if t = none then pure none
  else
    match n with
    | none => pure none
    | some n =>
      match v4Key n with
      | some (key, bits) => do
        let r ← rootsP t
        let v ← on32 (MatchP f r.1 key bits)
        pure (v.map .user)
      | none =>
        match v6Pair n with
        | some k => do
          let r ← rootsP t
          let v ← on64 (MatchP f r.2 k.msKey k.msBits)
          match v with
          | none => pure none
          | some v =>
            if k.msBits < 64 then pure (some v)
            else
              match v with
              | .user u => pure (some (.user u))
              | .sub s => do
                let y ← on64 (MatchP f s k.lsKey k.lsBits)
                match y with
                | some y => pure (some y)
                | none => do
                  let r ← rootsP t
                  on64 (MatchP f r.2 k.msKey 63)
        | none => pure none

/-- iptree/iptree.go:279-281 `GetByIP`. -/
def GetByIPP (f : Nat) (t : Ptr) (ip : Bytes) : Prog (IPD V) (Option (HV V)) := GetByNetP f t (newIPNetFromIP ip)

/-- iptree/iptree.go:340-360, what is sent for the nodes of `root64`. -/
def enum6P (f : Nat) : List (ND 64 (HV V)) → Prog (IPD V) (List (IPNet × HV V))
  | [] => pure []
  | n :: ns =>
    match n.value with
    | .sub s => do
      let l ← on64 (EnumerateP f s)
      let rest ← enum6P f ns
      pure (l.map (fun m => (key6s n.key m, m.value)) ++ rest)
    | .user v => do
      let rest ← enum6P f ns
      pure ((key6 n, .user v) :: rest)

/-- iptree/iptree.go:230-244 `Enumerate`, 330-361 `enumerate`: the pairs in the order they are sent. -/
def EnumerateTreeP (f : Nat) (t : Ptr) : Prog (IPD V) (List (IPNet × HV V)) :=
  if t = none then pure []
  else do
    let r ← rootsP t
    let a ← on32 (EnumerateP f r.1)
    let b ← on64 (EnumerateP f r.2)
    let c ← enum6P f b
    pure (a.map (fun n => (key4 n, .user n.value)) ++ c)

end Verif.IPHeap
