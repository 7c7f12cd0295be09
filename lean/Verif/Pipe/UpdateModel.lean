import Verif.Pipe.Walks
import Verif.IPHeap.UpdateModel

/-!
# UpdateDescendants with the goroutines it loops over

`Verif/IPHeap/UpdateModel.lean` runs the body of each loop at the moment the node is sent.  Here the loops receive from the channels
of goroutines that walk the nodes at their own pace, while the bodies write values to nodes of the same tree.
-/

namespace Verif.Pipe
open Verif Verif.Heap Verif.Heap.Prog Verif.Num Verif.NumHeap Verif.IP Verif.IPHeap

variable {V σ α : Type} {w : Nat} {W E : Type}

/-- What numtree's walk reads of a node: `Leaf`, `chld[0]`, `chld[1]`. -/
abbrev Fields := Option (Bool × Ptr × Ptr)

/-- The fields numtree's goroutines read of a cell. -/
def ipFields (c : Cell (IPD V)) : Fields :=
  match c.d with
  | .n32 d => some (d.leaf, c.c0, c.c1)
  | .n64 d => some (d.leaf, c.c0, c.c1)
  | .tree => none

/-- `nodesCh := target.Enumerate(); if target.Leaf { <-nodesCh }; for n := range nodesCh { body }`, iptree/iptree.go:125-137, 157-165
and 169-180.  The target is not nil. -/
def descM (K : Kind (ND w W) E) (body : Addr → σ → (σ → Main E Fields Addr α) → Main E Fields Addr α) (f rounds : Nat) (target : Ptr) (s : σ)
    (k : σ → Main E Fields Addr α) : Main E Fields Addr α :=
  .go (numGen id id f target) fun i =>
    .prog ((load target).lift K) fun c =>
      if c.d.leaf then .recv i fun _ => .range i body rounds s k
      else .range i body rounds s k

/-- A loop body that is a program on nodes of one kind. -/
def bodyM (K : Kind (ND w W) E) (visit : Ptr → σ → Prog (ND w W) σ) (a : Addr) (s : σ) (k : σ → Main E Fields Addr α) : Main E Fields Addr α :=
  .prog ((visit (some a) s).lift K) k

/-- iptree/iptree.go:172-181, body of the loop over `root64`; a nested tree is walked by a goroutine of its own. -/
def body6M (cb : σ → IPNet → V → (V × Bool) × σ) (f rounds : Nat) (a : Addr) (s : σ) (k : σ → Main (IPD V) Fields Addr α) : Main (IPD V) Fields Addr α :=
  .prog ((load (some a)).lift k64) fun c => match c.d.value with
    | .sub p => .go (numGen id id f p) fun i => .range i (bodyM k64 (updateNode64P cb (key6s c.d.key))) rounds s k
    | .user _ => bodyM k64 (updateNode64P cb key6) a s k

/-- iptree/iptree.go:119-183 `UpdateDescendants`.  `f` bounds the depth of the walks, `rounds` the length of the loops. -/
def updM (f rounds : Nat) (cb : σ → IPNet → V → (V × Bool) × σ) (t : Ptr) (n : Option IPNet) (s : σ) : Main (IPD V) Fields Addr σ :=
  match n with
  | none => .stop .panic
  | some n =>
    match v4Key n with
    | some (key, bits) =>
      .prog (rootsP t) fun r => .prog ((FindNodeP f r.1 key bits).lift k32) fun target =>
        if target = none then .ret s else descM k32 (bodyM k32 (visit4 cb)) (f + 2) rounds target s .ret
    | none =>
      match v6Pair n with
      | none => .ret s
      | some k =>
        .prog (rootsP t) fun r => .prog ((FindNodeP f r.2 k.msKey k.msBits).lift k64) fun target =>
          if target = none then .ret s else
          .prog ((load target).lift k64) fun c => match c.d.value with
            | .sub s2 => .prog ((load s2).lift k64) fun sc =>
              .prog ((if sc.d.key = k.lsKey ∧ (sc.d.bits : Int) = k.lsBits then pure s2 else FindNodeP f s2 k.lsKey k.lsBits).lift k64) fun target =>
                if target = none then .ret s else descM k64 (bodyM k64 (updateNode64P cb (key6s k.msKey))) (f + 2) rounds target s .ret
            | .user _ => descM k64 (body6M cb (f + 1) rounds) (f + 2) rounds target s .ret

end Verif.Pipe
