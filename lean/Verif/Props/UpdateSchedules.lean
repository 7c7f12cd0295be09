import Verif.Pipe.Update
import Verif.Pipe.Exec
import Verif.Props.IptreeUpdateHeap

/-!
# Property C64: UpdateDescendants and the goroutines it loops over

UpdateDescendants changes the values of nodes while goroutines of numtree walk the same nodes.  `Ends φ m h Q`: however the steps of
caller `m` and goroutines interleave from memory `h` on, nothing panics, there is no deadlock and no endless run, and when the caller
returns, result and memory satisfy `Q` and every goroutine has returned.  `ipFields` are the fields of a node the goroutines read.
-/

namespace Verif.Props
open Verif Verif.Heap Verif.Heap.Prog Verif.IP Verif.IPHeap Verif.Pipe
variable {V : Type} [Inhabited V]

/-- C64, exclusively held trees: after any legal history, under every schedule, UpdateDescendants with any callback (`σ` is its state)
on a network the tree lists ends without panic or deadlock and leaves no goroutine.  The callback has been run on exactly the listed
networks strictly below, in listing order; the tree then lists the values it asked to replace replaced and everything else as before;
all other held trees answer every query as before. -/
theorem C64_update {σ : Type} {f rounds : Nat} (hf : 66 ≤ f) (hr : 2 ^ (f + 1) ≤ rounds) (ops : List (SOp (UOp V)))
    (hl : (Book.init : Book (UOp V)).LegalAll2 (fun _ o => isCall o) (uInpOk true) ops) (i : Nat)
    (hi : ∀ (v : Nat × List (UOp V)), (Book.init.exec ops).vs[i]? = some v → ∀ (j : Nat) u, j ≠ i → (Book.init.exec ops).vs[j]? = some u → u.1 ≠ v.1)
    (cb : σ → IPNet → V → (V × Bool) × σ) {n : IPNet} {g : Fam} {p : List Bool} (hn : IsNet n g p) (s0 : σ) :
    ∃ s, OStore.init.exec (ipuImpl true f) ops = .ok s ∧ ∀ r, s.roots[i]? = some r →
      ∃ l : List (IPNet × V), answer (EnumerateTreeP f r) s.heap = some (l.map fun p => (p.1, .user p.2)) ∧
        ((∃ x ∈ l, IsCanonNet x.1 g p) → Ends ipFields (updM f rounds cb r (some n) s0) s.heap fun s1 h' => s1 = (updateBelow cb g p l s0).2 ∧
          answer (EnumerateTreeP f r) h' = some ((updateBelow cb g p l s0).1.map fun p => (p.1, .user p.2)) ∧
          ∀ (j : Nat) q, j ≠ i → s.roots[j]? = some q →
            (∀ n, answer (GetByNetP f q n) h' = answer (GetByNetP f q n) s.heap) ∧ answer (EnumerateTreeP f q) h' = answer (EnumerateTreeP f q) s.heap) := by
  obtain ⟨s, e, h1⟩ := C60_update hf ops hl i hi cb hn s0
  obtain ⟨s', e', hk, _⟩ := obj_history (ipuImpl_lawful (V := V) true hf ops.length) ops (Nat.le_refl _) hl
  rw [e] at e'; cases e'
  refine ⟨s, e, fun r hr' => ?_⟩
  obtain ⟨l, h2, h3⟩ := h1 r hr'
  refine ⟨l, h2, fun hx => ?_⟩
  obtain ⟨h', a, h4, h5, _, _, h6⟩ := h3 hx
  refine (updM_ends cb hr hk h4).mono ?_
  rintro x h2 ⟨rfl, rfl⟩
  exact ⟨rfl, h5, h6⟩

/-- C64, all trees and networks: after any legal history, under every schedule, UpdateDescendants on any held tree ends like the run in
which the loop body is executed at the moment its node is sent, in result and memory: the order of steps of caller and goroutines
never matters. -/
theorem C64_schedules {σ : Type} {f rounds : Nat} (hf : 66 ≤ f) (hr : 2 ^ (f + 1) ≤ rounds) (ops : List (SOp (UOp V)))
    (hl : (Book.init : Book (UOp V)).LegalAll2 (fun _ o => isCall o) (uInpOk true) ops) (cb : σ → IPNet → V → (V × Bool) × σ)
    {n : IPNet} {g : Fam} {p : List Bool} (hn : IsNet n g p) (s0 : σ) :
    ∃ s, OStore.init.exec (ipuImpl true f) ops = .ok s ∧ ∀ (i : Nat) r, s.roots[i]? = some r →
      ∃ s1 h', (UpdateDescendantsP f cb r (some n) s0).run s.heap = .ok (s1, h') ∧
        Ends ipFields (updM f rounds cb r (some n) s0) s.heap fun x h2 => x = s1 ∧ h2 = h' := by
  obtain ⟨s, e, h1⟩ := C60_shared hf ops hl cb hn s0
  obtain ⟨s', e', hk, _⟩ := obj_history (ipuImpl_lawful (V := V) true hf ops.length) ops (Nat.le_refl _) hl
  rw [e] at e'; cases e'
  refine ⟨s, e, fun i r hr' => ?_⟩
  obtain ⟨s1, h', h2, _⟩ := h1 i r hr'
  exact ⟨s1, h', h2, updM_ends cb hr hk h2⟩

/-! ## Concrete cases -/

/-- A callback that logs its calls and adds 100 to even values. -/
def noteCb (s : List (IPNet × Nat)) (n : IPNet) (v : Nat) : (Nat × Bool) × List (IPNet × Nat) := ((v + 100, v % 2 == 0), s ++ [(n, v)])

/-- Log of the callback, values listed afterwards and number of goroutines started, after `updSample` and UpdateDescendants of tree 0. -/
def updOutcome (n : IPNet) (eager : Bool) : Option (List Nat × Option (List (HV Nat)) × Nat) :=
  match OStore.init.exec (ipuImpl true 66) updSample with
  | .error _ => none
  | .ok s => match s.roots[0]? with
    | none => none
    | some r =>
      let e := drive ipFields eager 2000 ⟨s.heap, updM 66 (2 ^ 67) noteCb r (some n) [], []⟩
      match e.main with
      | .ret x => some (x.map Prod.snd, (answer (EnumerateTreeP 66 r) e.heap).map fun l => l.map Prod.snd, e.kids.length)
      | _ => none

/-- Below 2001::/16 there are a /64 and, in a nested tree with a goroutine of its own, a /128.  The same in both schedules. -/
example : ∀ eager, updOutcome (net6 0x20 0x01 0 0 16) eager = some ([102, 204], some [.user 8, .user 6, .user 202, .user 304], 2) := by decide +kernel

/-- Below 2001::/64: the loop over the nested tree. -/
example : ∀ eager, updOutcome (net6 0x20 0x01 0 0 64) eager = some ([204], some [.user 8, .user 6, .user 102, .user 304], 1) := by decide +kernel

end Verif.Props
