import Verif.IPHeap.Model

/-!
# Pointer-level model of `UpdateDescendants`

The loop over the channel of `Enumerate` runs its body on a node when the node is sent, before the enumerating goroutine
goes on (one of the possible schedules; the goroutine reads only `Leaf` and `chld`, which the bodies do not write).
-/

namespace Verif.IPHeap
open Verif Verif.Heap Verif.Heap.Prog Verif.Num Verif.NumHeap Verif.IP

variable {V σ : Type} {w : Nat} {W : Type}

/-- numtree/node32.go:307-320 `enumerate`, node64.go:277-289, with the body of the loop receiving the nodes; `s` is the
state of the caller. -/
def walkP (visit : Ptr → σ → Prog (ND w W) σ) : Nat → Ptr → σ → Prog (ND w W) σ
  | 0, _, _ => .stop .fuel
  | f + 1, n, s => do
    let nc ← load n
    let s ← if nc.d.leaf then visit n s else pure s
    let s ← ifNotNil nc.c0 s (walkP visit f nc.c0 s)
    ifNotNil nc.c1 s (walkP visit f nc.c1 s)

/-- `nodesCh := target.Enumerate(); if target.Leaf { <-nodesCh }; for n := range nodesCh { … }`: the target is dropped if it
is sent, so only the walks of its children have an effect. -/
def descP (visit : Ptr → σ → Prog (ND w W) σ) (f : Nat) (n : Ptr) (s : σ) : Prog (ND w W) σ := do
  let nc ← load n
  let s ← ifNotNil nc.c0 s (walkP visit f nc.c0 s)
  ifNotNil nc.c1 s (walkP visit f nc.c1 s)

/-- iptree/iptree.go:130-136, body of the loop over IPv4 nodes. -/
def visit4 (cb : σ → IPNet → V → (V × Bool) × σ) (n : Ptr) (s : σ) : Prog (ND 32 V) σ := do
  let nc ← load n
  let r := cb s (key4 nc.d) nc.d.value
  if r.1.2 then
    upd n (fun c => { c with d := { c.d with value := r.1.1 } })
    pure r.2
  else pure r.2

/-- iptree/iptree.go:96-116 `updateNode64`; the key is `key6 n` without and `key6s ms n` with the first half `MSIP`.  A value
that is a nested tree would be passed to the callback as it is; it does not occur. -/
def updateNode64P (cb : σ → IPNet → V → (V × Bool) × σ) (key : ND 64 (HV V) → IPNet) (n : Ptr) (s : σ) : Prog (ND 64 (HV V)) σ := do
  let nc ← load n
  match nc.d.value with
  | .sub _ => .stop .panic
  | .user v =>
    let r := cb s (key nc.d) v
    if r.1.2 then
      upd n (fun c => { c with d := { c.d with value := .user r.1.1 } })
      pure r.2
    else pure r.2

/-- iptree/iptree.go:172-181, body of the loop over `root64`. -/
def visit6 (cb : σ → IPNet → V → (V × Bool) × σ) (f : Nat) (n : Ptr) (s : σ) : Prog (ND 64 (HV V)) σ := do
  let nc ← load n
  match nc.d.value with
  | .sub p => ifNotNil p s (walkP (updateNode64P cb (key6s nc.d.key)) f p s)
  | .user _ => updateNode64P cb key6 n s

/-- iptree/iptree.go:145-181, with the target found in `root64`. -/
def target6P (cb : σ → IPNet → V → (V × Bool) × σ) (f : Nat) (k : Pair64) (target : Ptr) (s : σ) : Prog (ND 64 (HV V)) σ := do
  let c ← load target
  match c.d.value with
  | .sub s2 => do
    let sc ← load s2
    let target ← if sc.d.key = k.lsKey ∧ (sc.d.bits : Int) = k.lsBits then pure s2 else FindNodeP f s2 k.lsKey k.lsBits
    if target = none then pure s else descP (updateNode64P cb (key6s k.msKey)) f target s
  | .user _ => descP (visit6 cb f) f target s

/-- iptree/iptree.go:119-183 `UpdateDescendants`.  After an IPv4 network the second half does nothing
(`iPv6NetToUint64Pair` rejects it), so it is left out there. -/
def UpdateDescendantsP (f : Nat) (cb : σ → IPNet → V → (V × Bool) × σ) (t : Ptr) (n : Option IPNet) (s : σ) : Prog (IPD V) σ :=
  match n with
  | none => .stop .panic
  | some n =>
    match v4Key n with
    | some (key, bits) => do
      let r ← rootsP t
      on32 (do
        let target ← FindNodeP f r.1 key bits
        if target = none then pure s else descP (visit4 cb) f target s)
    | none =>
      match v6Pair n with
      | none => pure s
      | some k => do
        let r ← rootsP t
        on64 (do
          let target ← FindNodeP f r.2 k.msKey k.msBits
          if target = none then pure s else target6P cb f k target s)

end Verif.IPHeap
