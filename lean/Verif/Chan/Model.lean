import Verif.Num.Model
import Verif.Strtree.Model
import Verif.DL.Model
import Verif.DomTree.Model
import Verif.IP.Model
import Verif.UIP.Model
import Verif.Spec.Delivery

/-!
# Enumerate as goroutines with unbuffered channels

Every `Enumerate` makes an unbuffered channel, starts a goroutine that sends to it and closes it at the end, and returns the
channel.  Some of these goroutines range over the channel of another `Enumerate`.  A goroutine's code is a `Gen`; its
state, together with the states of the goroutines it has started and their channels, is a `St`.  Steps of different
goroutines interleave freely; a send and the matching receive are one joint step, as for Go's unbuffered channels.

Left out: the memory the walks read (`Verif/NumHeap`, `Verif/RBHeap`, `Verif/IPHeap` treat it) and panics of
`MakeHumanReadableLabel` (the theorems assume a listing that does not panic).
-/

namespace Verif.Chan
open Verif.Spec

/-- Code of a goroutine that sends values of type `A` to its channel. -/
inductive Gen : Type → Type 1 where
  /-- nothing left to do -/
  | skip {A : Type} : Gen A
  /-- `ch <- a` -/
  | send {A : Type} (a : A) : Gen A
  /-- `g; h` -/
  | seq {A : Type} (g h : Gen A) : Gen A
  /-- `for b := range x.Enumerate() { body(b) }` where the goroutine of `x.Enumerate()` runs `inner` -/
  | range {A B : Type} (inner : Gen B) (body : B → Gen A) : Gen A

/-- State of a goroutine and of those it has started. -/
inductive St : Type → Type 1 where
  /-- about to run `g` -/
  | prog {A : Type} (g : Gen A) : St A
  /-- running `s`, then `g` -/
  | seq {A : Type} (s : St A) (g : Gen A) : St A
  /-- at the head of a `range` loop: `inner` is the other goroutine, `cl` tells if its channel is closed -/
  | range {A B : Type} (inner : St B) (cl : Bool) (body : B → Gen A) : St A
  /-- in the body `s` of the loop -/
  | inBody {A B : Type} (inner : St B) (cl : Bool) (body : B → Gen A) (s : St A) : St A
  /-- returned -/
  | fin {A : Type} : St A

/-- One step.  The label is the value the goroutine sends, which takes a willing receiver. -/
inductive Step : {A : Type} → St A → Option A → St A → Prop where
  | skip {A : Type} : Step (.prog (.skip : Gen A)) none .fin
  | send {A : Type} (a : A) : Step (.prog (.send a)) (some a) .fin
  | seq {A : Type} (g h : Gen A) : Step (.prog (.seq g h)) none (.seq (.prog g) h)
  | seqL {A : Type} {s s' : St A} {l : Option A} (g : Gen A) : Step s l s' → Step (.seq s g) l (.seq s' g)
  | seqR {A : Type} (g : Gen A) : Step (.seq .fin g) none (.prog g)
  /-- `make(chan B)`, `go func() ...` -/
  | go {A B : Type} (inner : Gen B) (body : B → Gen A) : Step (.prog (.range inner body)) none (.range (.prog inner) false body)
  | rangeIn {A B : Type} {i i' : St B} {cl : Bool} {body : B → Gen A} : Step i none i' → Step (.range i cl body) none (.range i' cl body)
  /-- the inner goroutine sends, the loop receives -/
  | recv {A B : Type} {i i' : St B} {b : B} {body : B → Gen A} : Step i (some b) i' →
      Step (.range i false body) none (.inBody i' false body (.prog (body b)))
  /-- deferred `close(ch)` of the inner goroutine -/
  | rangeClose {A B : Type} {body : B → Gen A} : Step (.range (.fin : St B) false body) none (.range .fin true body)
  /-- the loop sees the closed channel -/
  | rangeEnd {A B : Type} {i : St B} {body : B → Gen A} : Step (.range i true body) none .fin
  | bodyIn {A B : Type} {i i' : St B} {cl : Bool} {body : B → Gen A} {s : St A} : Step i none i' →
      Step (.inBody i cl body s) none (.inBody i' cl body s)
  | bodyClose {A B : Type} {body : B → Gen A} {s : St A} : Step (.inBody (.fin : St B) false body s) none (.inBody .fin true body s)
  | bodyStep {A B : Type} {i : St B} {cl : Bool} {body : B → Gen A} {s s' : St A} {l : Option A} : Step s l s' →
      Step (.inBody i cl body s) l (.inBody i cl body s')
  | bodyEnd {A B : Type} {i : St B} {cl : Bool} {body : B → Gen A} : Step (.inBody i cl body .fin) none (.range i cl body)

/-- The producer started by `Enumerate` and the caller's side of the channel. -/
structure Sys (A : Type) where
  s : St A
  /-- the channel is closed -/
  cl : Bool
  /-- what the caller has received -/
  got : List A
  /-- the caller has seen that the channel is closed -/
  seen : Bool
  /-- the caller has stopped receiving -/
  quit : Bool

/-- Steps of the producer side and of a caller that receives as long as it has not quit. -/
inductive SysStep {A : Type} : Sys A → Sys A → Prop where
  | tau {s s' : St A} {cl got seen quit} : Step s none s' → SysStep ⟨s, cl, got, seen, quit⟩ ⟨s', cl, got, seen, quit⟩
  | recv {s s' : St A} {a : A} {got seen} : Step s (some a) s' → SysStep ⟨s, false, got, seen, false⟩ ⟨s', false, got ++ [a], seen, false⟩
  | close {got seen quit} : SysStep ⟨.fin, false, got, seen, quit⟩ ⟨.fin, true, got, seen, quit⟩
  | sees {s : St A} {got} : SysStep ⟨s, true, got, false, false⟩ ⟨s, true, got, true, false⟩

/-- The caller gives up: `break` out of the loop over the channel. -/
inductive Quit {A : Type} : Sys A → Sys A → Prop where
  | quit {s : St A} {cl got seen} : Quit ⟨s, cl, got, seen, false⟩ ⟨s, cl, got, seen, true⟩

/-- Just after `Enumerate` has returned. -/
def start {A : Type} (g : Gen A) : Sys A := ⟨.prog g, false, [], false, false⟩

/-! ## The goroutines of the packages -/

section
open Verif.Num Verif.RB
variable {V : Type}

/-- numtree/node32.go:87-104,307-320; numtree/node64.go likewise. -/
def numGen {w : Nat} : NTree w V → Gen (ND w V)
  | .nil => .skip
  | .node n l r => .seq (if n.leaf then .send n else .skip)
      (.seq (if l.isNil then .skip else numGen l) (if r.isNil then .skip else numGen r))

/-- strtree/node.go:295-305 `enumerate`; dltree/node.go:320-330 `rawEnumerate`. -/
def rbGen : RTree Bytes V → Gen (Bytes × V)
  | .nil => .skip
  | .node d l r => .seq (rbGen l) (.seq (.send (d.key, d.value)) (rbGen r))

/-- strtree/strtree.go:62-77 `Enumerate`. -/
def strtreeGen (t : Option (Strtree.Tree V)) : Gen (Bytes × V) :=
  match t with
  | none => .skip
  | some t => rbGen t.root

/-- dltree/dltree.go:96-111 `RawEnumerate`. -/
def dlRawGen (t : Option (DL.Tree V)) : Gen (Bytes × V) :=
  match t with
  | none => .skip
  | some t => rbGen t.root

/-- dltree/node.go:308-318 `enumerate`; a label that makes `MakeHumanReadableLabel` panic is printed as "" here. -/
def dlNodeGen : RTree Bytes V → Gen (Bytes × V)
  | .nil => .skip
  | .node d l r => .seq (dlNodeGen l) (.seq (.send ((Domain.MakeHumanReadableLabel d.key).getD [], d.value)) (dlNodeGen r))

/-- dltree/dltree.go:79-94 `Enumerate`. -/
def dlGen (t : Option (DL.Tree V)) : Gen (Bytes × V) :=
  match t with
  | none => .skip
  | some t => dlNodeGen t.root

/-- domaintree/domaintree.go:195-215 `enumerate`; `fuel` bounds the depth of the recursion. -/
def domGen : Nat → Bytes → DomTree.Node V → Gen (Bytes × V)
  | 0, _, _ => .skip
  | fuel + 1, s, n =>
    .seq (match n.val with | some v => .send (s, v) | none => .skip)
      (.range (dlGen n.branches) fun item => domGen fuel (DomTree.subKey item.1 s) item.2)

/-- domaintree/domaintree.go:78-88 `Enumerate`. -/
def domaintreeGen (fuel : Nat) (n : Option (DomTree.Node V)) : Gen (Bytes × V) :=
  match n with
  | none => .skip
  | some n => domGen fuel [] n

open Verif.IP in
/-- iptree/iptree.go:230-244 `Enumerate`, 330-361 `enumerate`. -/
def iptreeGen (t : Option (IP.Tree V)) : Gen (IPNet × V) :=
  match t with
  | none => .skip
  | some t =>
    .seq (.range (numGen t.root32) fun n => .send (key4 n, n.value))
      (.range (numGen t.root64) fun n =>
        match n.value with
        | .sub s => .range (numGen s) fun m => .send (key6s n.key m, m.value)
        | .user v => .send (key6 n, v))

open Verif.IP in
/-- uintX/iptree8/iptree.go:107-121 `Enumerate`, 195-217 `enumerate`. -/
def uiptreeGen (t : Option (UIP.Tree V)) : Gen (IPNet × V) :=
  match t with
  | none => .skip
  | some t =>
    .seq (.range (numGen t.root32) fun n => .send (key4 n, n.value))
      (.range (numGen t.root64) fun n => .range (numGen n.value) fun m => .send (UIP.key6 n m, m.value))
end

end Verif.Chan
