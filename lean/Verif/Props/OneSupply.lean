import Verif.Heap.OneSupply
import Verif.Props.BlindReads

/-!
# Property theorems for goroutines working from the same trees in one memory (C57)

As `Verif/Props/Goroutines`, but new nodes of all goroutines come from one supply of addresses, in the order the turns fall, and `Promise1` says in addition that no goroutine writes a cell
another one is at, and what reads give, in the memory as it is then, on the trees a goroutine has at its end and on those held at the start.
-/

namespace Verif.Props
open Verif Verif.Heap

section Numtree
open Verif.Num Verif.NumHeap
variable {w : Nat} {V : Type} [LawfulKeySize w] [Inhabited V]

/-- C57 (numtree), one supply of addresses. -/
theorem C57_numtree_one_supply {f : Nat} (hf : w + 2 ≤ f) (ops : List (SOp (NumOp w V)))
    (hl : (Book.init : Book (NumOp w V)).LegalAll2 (numImpl f w V).toO.cowOk (numImpl f w V).toO.inpOk ops)
    {T : Type} [DecidableEq T] (script : T → List (TOp (NumOp w V) (NumQ w)))
    (hs : ∀ t, (Book.init.exec ops).LegalT (numImpl f w V).toO.cowOk (numImpl f w V).toO.inpOk (Book.init.exec ops).next (script t))
    (hN : ∃ N, ∀ t, (script t).length ≤ N) (sched : List T) :
    ∃ s, OStore.init.exec (numImpl f w V).toO ops = .ok s ∧ ∀ t,
      let prog := fun t => sessionP (numImpl f w V).toO (numRead f) (script t) s.roots
      Promise1 s (Book.init.exec ops) script prog (numRead f) NumRight ((Team.mk s.heap prog).exec sched) sched t := by
  obtain ⟨N, hN⟩ := hN
  exact obj_team (Impl.toO_lawful (numImpl_lawful (V := V) hf (ops.length + N))) (numBlind f w V) ops hl (numRead f) NumRight (fun _ => Eq) (numRead_blind f)
    (fun _ _ _ x y h hy => h ▸ hy) (fun q h r l F _ ho => numRead_ok hf q h r l F ho) script (by omega) (fun t => by have := hN t; omega) hs sched

end Numtree

section Strtree
open Verif.RB Verif.RBHeap
variable {V : Type} [Inhabited V]

/-- C57 (strtree), one supply of addresses. -/
theorem C57_strtree_one_supply {cmp : Bytes → Bytes → Int} (hc : LawfulCmp cmp) (ops : List (SOp (KOp Bytes V))) {f N : Nat} (hf : 2 * (ops.length + N) + 3 ≤ f)
    (hl : (Book.init : Book (KOp Bytes V)).LegalAll2 (rbImpl cmp f).toO.cowOk (rbImpl cmp f).toO.inpOk ops)
    {T : Type} [DecidableEq T] (script : T → List (TOp (KOp Bytes V) KVQ)) (hN : ∀ t, (script t).length ≤ N)
    (hs : ∀ t, (Book.init.exec ops).LegalT (rbImpl cmp f).toO.cowOk (rbImpl cmp f).toO.inpOk (Book.init.exec ops).next (script t))
    (sched : List T) :
    ∃ s, OStore.init.exec (rbImpl cmp f).toO ops = .ok s ∧ ∀ t,
      let prog := fun t => sessionP (rbImpl cmp f).toO (kvRead cmp f) (script t) s.roots
      Promise1 s (Book.init.exec ops) script prog (kvRead cmp f) (KVRight cmp) ((Team.mk s.heap prog).exec sched) sched t := by
  exact obj_team (Impl.toO_lawful (rbImpl_lawful (V := V) hc.refl hf)) (rbBlind cmp f) ops hl (kvRead cmp f) (KVRight cmp) (fun _ => Eq) (kvRead_blind cmp f)
    (fun _ _ _ x y h hy => h ▸ hy) (fun q h r l F hn ho => kvRead_ok hc hf q h r l F hn ho) script (by omega) (fun t => by have := hN t; omega) hs sched

end Strtree

section Dltree
open Verif.RBHeap Verif.DLHeap
variable {V : Type} [Inhabited V]

/-- C57 (dltree), one supply of addresses. -/
theorem C57_dltree_one_supply (st : Bool) (ops : List (SOp (DL.Op V))) {f N : Nat} (hf : 2 * (ops.length + N) + 3 ≤ f)
    (hl : (Book.init : Book (DL.Op V)).LegalAll2 dlCow (dlInp st) ops)
    {T : Type} [DecidableEq T] (script : T → List (TOp (DL.Op V) LabelQ)) (hN : ∀ t, (script t).length ≤ N)
    (hs : ∀ t, (Book.init.exec ops).LegalT dlCow (dlInp st) (Book.init.exec ops).next (script t)) (sched : List T) :
    ∃ s, OStore.init.exec (dlImpl st f) ops = .ok s ∧ ∀ t,
      let prog := fun t => sessionP (dlImpl st f) (labelRead f) (script t) s.roots
      Promise1 s (Book.init.exec ops) script prog (labelRead f) LabelRight ((Team.mk s.heap prog).exec sched) sched t := by
  exact obj_team (dlImpl_lawful (V := V) st hf) (dlBlind st f) ops hl (labelRead f) LabelRight (fun _ => Eq) (labelRead_blind st f)
    (fun _ _ _ x y h hy => h ▸ hy) (fun q h r l F hn ho => labelRead_ok hf q h r l F hn ho) script (by omega) (fun t => by have := hN t; omega) hs sched

end Dltree

section Domaintree
open Verif.Domain Verif.DomTree Verif.DomHeap
variable {V : Type}

/-- C57 (domaintree), one supply of addresses. -/
theorem C57_domaintree_one_supply (st : Bool) (ops : List (SOp (Op V))) {f N : Nat} (hf : 2 * (ops.length + N) + 3 ≤ f) (hk : 128 ≤ f)
    (hl : (Book.init : Book (Op V)).LegalAll2 cowOk (inpOk st) ops)
    {T : Type} [DecidableEq T] (script : T → List (TOp (Op V) DomQ)) (hN : ∀ t, (script t).length ≤ N)
    (hs : ∀ t, (Book.init.exec ops).LegalT cowOk (inpOk st) (Book.init.exec ops).next (script t)) (sched : List T) :
    ∃ s, OStore.init.exec (domImpl st f) ops = .ok s ∧ ∀ t,
      let prog := fun t => sessionP (domImpl st f) (domRead f) (script t) s.roots
      Promise1 s (Book.init.exec ops) script prog (domRead f) DomRight ((Team.mk s.heap prog).exec sched) sched t := by
  exact obj_team (domImpl_lawful (V := V) st hf) (domBlind st f) ops hl (domRead f) DomRight (fun _ => Eq) (domRead_blind st f)
    (fun _ _ _ x y h hy => h ▸ hy) (fun q h r l F hn ho => domRead_ok hf hk q h r l F hn ho) script (by omega) (fun t => by have := hN t; omega) hs sched

end Domaintree

section Iptree
open Verif.IP Verif.IPHeap Verif.NumHeap
variable {V : Type} [Inhabited V]

/-- C57 (iptree), one supply of addresses. -/
theorem C57_iptree_one_supply (st : Bool) {f : Nat} (hf : 66 ≤ f) (ops : List (SOp (Op V)))
    (hl : (Book.init : Book (Op V)).LegalAll2 (fun _ _ => True) (ipImpl st f).inpOk ops)
    {T : Type} [DecidableEq T] (script : T → List (TOp (Op V) NetQ))
    (hs : ∀ t, (Book.init.exec ops).LegalT (fun _ _ => True) (ipImpl st f).inpOk (Book.init.exec ops).next (script t))
    (hN : ∃ N, ∀ t, (script t).length ≤ N) (sched : List T) :
    ∃ s, OStore.init.exec (ipImpl st f) ops = .ok s ∧ ∀ t,
      let prog := fun t => sessionP (ipImpl st f) (netRead f) (script t) s.roots
      Promise1 s (Book.init.exec ops) script prog (netRead f) NetRight ((Team.mk s.heap prog).exec sched) sched t := by
  obtain ⟨N, hN⟩ := hN
  exact obj_team (ipImpl_lawful (V := V) st hf (ops.length + N)) (ipBlind st f) ops hl (netRead f) NetRight NetAlike (netRead_blind st f)
    netRight_alike (fun q h r l F _ ho => netRead_ok hf q h r l F ho) script (by omega) (fun t => by have := hN t; omega) hs sched

end Iptree

section UIptree
open Verif.IP Verif.UIPHeap Verif.NumHeap
variable {V : Type} [Inhabited V]

/-- C57 (generated IP trees), one supply of addresses. -/
theorem C57_uiptree_one_supply (st : Bool) {f : Nat} (hf : 66 ≤ f) (ops : List (SOp (Op V)))
    (hl : (Book.init : Book (Op V)).LegalAll2 (fun _ _ => True) (uipImpl st f).inpOk ops)
    {T : Type} [DecidableEq T] (script : T → List (TOp (Op V) NetQ))
    (hs : ∀ t, (Book.init.exec ops).LegalT (fun _ _ => True) (uipImpl st f).inpOk (Book.init.exec ops).next (script t))
    (hN : ∃ N, ∀ t, (script t).length ≤ N) (sched : List T) :
    ∃ s, OStore.init.exec (uipImpl st f) ops = .ok s ∧ ∀ t,
      let prog := fun t => sessionP (uipImpl st f) (unetRead f) (script t) s.roots
      Promise1 s (Book.init.exec ops) script prog (unetRead f) UNetRight ((Team.mk s.heap prog).exec sched) sched t := by
  obtain ⟨N, hN⟩ := hN
  exact obj_team (uipImpl_lawful (V := V) st hf (ops.length + N)) (uipBlind st f) ops hl (unetRead f) UNetRight (fun _ => Eq) (unetRead_blind st f)
    (fun _ _ _ x y h hy => h ▸ hy) (fun q h r l F _ ho => unetRead_ok hf q h r l F ho) script (by omega) (fun t => by have := hN t; omega) hs sched

end UIptree

/-! ## A concrete case: the trees and scripts of `kvShared`, `kvScript` (`Verif/Props/Goroutines`), which meet the hypotheses -/

section
open Verif.RB Verif.RBHeap

/-- The answers of every goroutine, if it has ended, and what the trees of all goroutines list at the end of the schedule. -/
def finals1 {D O R K A : Type} (I : OImpl D O R) (Rd : K → R → Prog D A) (ops : List (SOp O)) (n : Nat) (script : Fin n → List (TOp O K)) (sched : List (Fin n)) (k : K) :
    Option (List (Option (List (Option A) × List (Option A)))) :=
  match OStore.init.exec I ops with
  | .ok s =>
    let e := (Team.mk s.heap fun t => sessionP I Rd (script t) s.roots).exec sched
    some ((List.finRange n).map fun t => (ended (e.prog t)).map fun x => (x.1, x.2.map fun r => answer (Rd k r) e.heap))
  | .error _ => none

set_option synthInstance.maxSize 1000 in
example : finals1 (rbImpl compareBytes 20).toO (kvRead compareBytes 20) kvShared 3 kvScript (turns 3 240 (by decide)) .list =
    some [some ([some (.val (some 1)), some (.list [([1], 1), ([2], 2), ([3], 3)])],
        [some (.list []), some (.list [([2], 2)]), some (.list [([1], 1), ([2], 2)]), some (.list [([1], 1), ([2], 2), ([3], 3)])]),
      some ([some (.list [([1], 1)]), some (.list [([1], 1), ([2], 2)])],
        [some (.list []), some (.list [([2], 2)]), some (.list [([1], 1), ([2], 2)]), some (.list [([1], 1)])]),
      some ([some (.list [([8], 8), ([9], 9)]), some (.list [([1], 1), ([2], 2)])],
        [some (.list []), some (.list [([2], 2)]), some (.list [([1], 1), ([2], 2)]), some (.list [([8], 8), ([9], 9)])])] := by decide +kernel

end

end Verif.Props
