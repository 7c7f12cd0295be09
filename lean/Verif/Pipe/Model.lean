import Verif.Heap.Prog
import Verif.Spec.Delivery

/-!
# Goroutines that read memory and send over channels, beside a caller that works on the same memory

`Enumerate` starts a goroutine that walks nodes in memory and sends over an unbuffered channel; some of these goroutines start
others and receive from them.  Meanwhile the caller's loop body may read, allocate and write.  `Verif/Chan` treats the channels
without memory, `Verif/Heap` the memory without channels; here are both.

A step reads or writes one cell, starts a goroutine, or is a send together with the matching receive.  Steps of different
goroutines interleave freely (sequential consistency).  A goroutine that has returned has closed its channel.
-/

namespace Verif.Pipe
open Verif.Heap

variable {D X B α β σ : Type}

/-- Code of a goroutine that sends values of type `B`.  Of a cell it reads only the fields given by a function into `X`. -/
inductive Gen (X B : Type) where
  /-- return (and close the channel) -/
  | done
  /-- panic -/
  | fail
  /-- read fields of a cell -/
  | read (a : Addr) (k : X → Gen X B)
  /-- `ch <- b` -/
  | send (b : B) (k : Gen X B)
  /-- start a goroutine with a channel of its own; the continuation gets the number of the channel -/
  | go (g : Gen X B) (k : Nat → Gen X B)
  /-- receive from a channel; `none` when it is closed -/
  | recv (i : Nat) (k : Option B → Gen X B)

/-- A goroutine with the goroutines it has started; the place in the list is the number of the channel. -/
inductive Proc (X B : Type) where
  | mk (g : Gen X B) (kids : List (Proc X B))

/-- One step of a goroutine or of one below it, in memory `h`.  The label is a value sent, which takes a willing receiver. -/
inductive PStep (φ : Cell D → X) (h : Heap D) : Proc X B → Option B → Proc X B → Prop where
  | read {a : Addr} {c : Cell D} {k : X → Gen X B} {ks : List (Proc X B)} : h.mem a = some c → PStep φ h (.mk (.read a k) ks) none (.mk (k (φ c)) ks)
  | send {b : B} {g : Gen X B} {ks : List (Proc X B)} : PStep φ h (.mk (.send b g) ks) (some b) (.mk g ks)
  | go {g : Gen X B} {k : Nat → Gen X B} {ks : List (Proc X B)} : PStep φ h (.mk (.go g k) ks) none (.mk (k ks.length) (ks ++ [.mk g []]))
  | recv {i : Nat} {k : Option B → Gen X B} {ks : List (Proc X B)} {p p' : Proc X B} {b : B} : ks[i]? = some p → PStep φ h p (some b) p' →
      PStep φ h (.mk (.recv i k) ks) none (.mk (k (some b)) (ks.set i p'))
  | closed {i : Nat} {k : Option B → Gen X B} {ks ks' : List (Proc X B)} : ks[i]? = some (.mk .done ks') →
      PStep φ h (.mk (.recv i k) ks) none (.mk (k none) ks)
  | kid {i : Nat} {g : Gen X B} {ks : List (Proc X B)} {p p' : Proc X B} : ks[i]? = some p → PStep φ h p none p' →
      PStep φ h (.mk g ks) none (.mk g (ks.set i p'))

/-- The goroutine or one below it has panicked (or is about to read where nothing is). -/
inductive Proc.Bad (h : Heap D) : Proc X B → Prop where
  | fail {ks : List (Proc X B)} : Proc.Bad h (.mk .fail ks)
  | wild {a : Addr} {k : X → Gen X B} {ks : List (Proc X B)} : h.mem a = none → Proc.Bad h (.mk (.read a k) ks)
  | kid {i : Nat} {g : Gen X B} {ks : List (Proc X B)} {p : Proc X B} : ks[i]? = some p → p.Bad h → Proc.Bad h (.mk g ks)

mutual
/-- The goroutine and all below it have returned. -/
def Proc.Over : Proc X B → Prop
  | .mk g ks => g = .done ∧ allOver ks
/-- The same for several. -/
def allOver : List (Proc X B) → Prop
  | [] => True
  | p :: ps => p.Over ∧ allOver ps
end

/-- Code of the caller: a program that may also start goroutines and receive from their channels. -/
inductive Main (D X B α : Type) where
  | ret (x : α)
  | stop (e : Err)
  | read (a : Addr) (k : Cell D → Main D X B α)
  | write (a : Addr) (c : Cell D) (k : Main D X B α)
  | alloc (c : Cell D) (k : Addr → Main D X B α)
  | go (g : Gen X B) (k : Nat → Main D X B α)
  | recv (i : Nat) (k : Option B → Main D X B α)

/-- Memory, caller and the goroutines it has started. -/
structure Sys (D X B α : Type) where
  heap : Heap D
  main : Main D X B α
  kids : List (Proc X B)

/-- One step of the whole. -/
inductive Step (φ : Cell D → X) : Sys D X B α → Sys D X B α → Prop where
  | read {h : Heap D} {a : Addr} {c : Cell D} {k : Cell D → Main D X B α} {ks : List (Proc X B)} : h.mem a = some c → Step φ ⟨h, .read a k, ks⟩ ⟨h, k c, ks⟩
  | write {h : Heap D} {a : Addr} {c : Cell D} {k : Main D X B α} {ks : List (Proc X B)} : Step φ ⟨h, .write a c k, ks⟩ ⟨h.put a c, k, ks⟩
  | alloc {h : Heap D} {c : Cell D} {k : Addr → Main D X B α} {ks : List (Proc X B)} : Step φ ⟨h, .alloc c k, ks⟩ ⟨h.push c, k h.next, ks⟩
  | go {h : Heap D} {g : Gen X B} {k : Nat → Main D X B α} {ks : List (Proc X B)} : Step φ ⟨h, .go g k, ks⟩ ⟨h, k ks.length, ks ++ [.mk g []]⟩
  | recv {h : Heap D} {i : Nat} {k : Option B → Main D X B α} {ks : List (Proc X B)} {p p' : Proc X B} {b : B} : ks[i]? = some p → PStep φ h p (some b) p' →
      Step φ ⟨h, .recv i k, ks⟩ ⟨h, k (some b), ks.set i p'⟩
  | closed {h : Heap D} {i : Nat} {k : Option B → Main D X B α} {ks ks' : List (Proc X B)} : ks[i]? = some (.mk .done ks') →
      Step φ ⟨h, .recv i k, ks⟩ ⟨h, k none, ks⟩
  | kid {h : Heap D} {i : Nat} {m : Main D X B α} {ks : List (Proc X B)} {p p' : Proc X B} : ks[i]? = some p → PStep φ h p none p' →
      Step φ ⟨h, m, ks⟩ ⟨h, m, ks.set i p'⟩

/-- Something has panicked. -/
def Sys.Bad (s : Sys D X B α) : Prop := (∃ e, s.main = .stop e) ∨ ∃ p ∈ s.kids, p.Bad s.heap

/-- However the steps interleave: nothing panics, there is no deadlock and no endless run, the caller's result and the memory
it ends with satisfy `Q`, and by then every goroutine has returned. -/
structure Ends (φ : Cell D → X) (m : Main D X B α) (h : Heap D) (Q : α → Heap D → Prop) : Prop where
  noPanic : ∀ n s, Spec.Runs (Step φ) n ⟨h, m, []⟩ s → ¬ s.Bad
  noDeadlock : ∀ n s, Spec.Runs (Step φ) n ⟨h, m, []⟩ s → (∃ x, s.main = .ret x) ∨ ∃ s', Step φ s s'
  terminates : ∃ N, ∀ n s, Spec.Runs (Step φ) n ⟨h, m, []⟩ s → n ≤ N
  result : ∀ n s x, Spec.Runs (Step φ) n ⟨h, m, []⟩ s → s.main = .ret x → Q x s.heap
  noLeak : ∀ n s x, Spec.Runs (Step φ) n ⟨h, m, []⟩ s → s.main = .ret x → allOver s.kids

/-! ## Pieces of code -/

/-- A program of the caller, then `k`. -/
def Main.prog : Prog D β → (β → Main D X B α) → Main D X B α
  | .ret x, k => k x
  | .stop e, _ => .stop e
  | .read a p, k => .read a fun c => Main.prog (p c) k
  | .write a c p, k => .write a c (Main.prog p k)
  | .alloc c p, k => .alloc c fun a => Main.prog (p a) k

/-- `for b := range ch { s = body(b, s) }`, then `k`.  The bound on the number of rounds is proved sufficient. -/
def Main.range (i : Nat) (body : B → σ → (σ → Main D X B α) → Main D X B α) : Nat → σ → (σ → Main D X B α) → Main D X B α
  | 0, _, _ => .stop .fuel
  | f + 1, s, k => .recv i fun
    | none => k s
    | some b => body b s fun s => Main.range i body f s k

/-- `for b := range ch { body(b) }` in a goroutine. -/
def Gen.range (i : Nat) (body : B → Gen X B → Gen X B) : Nat → Gen X B → Gen X B
  | 0, _ => .fail
  | f + 1, k => .recv i fun
    | none => k
    | some b => body b (Gen.range i body f k)

end Verif.Pipe
