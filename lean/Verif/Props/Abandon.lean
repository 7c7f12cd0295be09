import Verif.Pipe.Leak
import Verif.Props.Iterate

/-!
# Property theorems for callers that stop receiving from Enumerate before the end (C56)

The caller takes `k` values from the channel of a tree with more than `k` entries and then returns.  In every interleaving it gets
exactly `k` values and nothing panics, but the goroutine started by Enumerate never ends: it waits forever for someone to receive.
-/

namespace Verif.Props
open Verif Verif.Heap Verif.Pipe Prog

/-- For every tree held after the history, a caller that takes fewer entries than there are leaves a goroutine behind. -/
def Abandons {D O R B E : Type} (I : OImpl D O R) (Lp : Loop D R B E) (L : List O → List E → Prop) (ops : List (SOp O)) : Prop :=
  ∃ s, OStore.init.exec I ops = .ok s ∧ ∀ (i : Nat) r v, s.roots[i]? = some r → (Book.init.exec ops).vs[i]? = some v →
    ∃ es, L v.2 es ∧ ∀ k, k < es.length → ∃ x, x.length = k ∧ Leaks id (takeMain (Lp.gen r) k) s.heap x

theorem Abandons.weaken {D O R B E : Type} {I : OImpl D O R} {Lp : Loop D R B E} {L L' : List O → List E → Prop} {ops : List (SOp O)} (h : Abandons I Lp L' ops)
    (hL : ∀ l es, L' l es → L l es) : Abandons I Lp L ops := by
  obtain ⟨s, h1, h2⟩ := h
  refine ⟨s, h1, fun i r v hr hv => ?_⟩
  obtain ⟨es, h3, h4⟩ := h2 i r v hr hv
  exact ⟨es, hL _ _ h3, h4⟩

section
open Verif.Num Verif.NumHeap

/-- C56 (numtree). -/
theorem C56_numtree {w : Nat} {V : Type} [LawfulKeySize w] [Inhabited V] {f rounds : Nat} (hf : w + 2 ≤ f) (hr : 2 ^ (w + 1) ≤ rounds) (ops : List (SOp (NumOp w V)))
    (hl : (Book.init : Book (NumOp w V)).LegalAll2 (numImpl f w V).toO.cowOk (numImpl f w V).toO.inpOk ops) :
    Abandons (numImpl f w V).toO (numLoop f rounds w V) (fun l es => NumRight .list l (.list es)) ops :=
  loop_leaks (Impl.toO_lawful (numImpl_lawful (V := V) hf _)) ops (Nat.le_refl _) hl (numLoop_lawful hf hr _)

end

section
open Verif.RB Verif.RBHeap

/-- C56 (strtree). -/
theorem C56_strtree {V : Type} [Inhabited V] {cmp : Bytes → Bytes → Int} (hc : LawfulCmp cmp) (ops : List (SOp (KOp Bytes V))) {f rounds : Nat} (hf : 2 * ops.length + 3 ≤ f)
    (hr : ops.length < rounds) (hl : (Book.init : Book (KOp Bytes V)).LegalAll2 (rbImpl cmp f).toO.cowOk (rbImpl cmp f).toO.inpOk ops) :
    Abandons (rbImpl cmp f).toO (strLoop f rounds V) (fun l es => KVRight cmp .list l (.list es)) ops :=
  Abandons.weaken (loop_leaks (Impl.toO_lawful (rbImpl_lawful (V := V) hc.refl hf)) ops (Nat.le_refl _) hl (strLoop_lawful hc hf hr)) fun _ _ h => h.1

end

section
open Verif.IP Verif.IPHeap

/-- C56 (iptree); the goroutine left behind may leave others behind that it has started. -/
theorem C56_iptree {V : Type} [Inhabited V] (st : Bool) {f rounds : Nat} (hf : 66 ≤ f) (hr : 2 ^ 131 < rounds) (ops : List (SOp (Op V)))
    (hl : (Book.init : Book (Op V)).LegalAll2 (fun _ _ => True) (ipImpl st f).inpOk ops) :
    Abandons (ipImpl st f) (ipLoop f rounds V) (fun l es => NetRight .list l (.list es)) ops :=
  loop_leaks (ipImpl_lawful (V := V) st hf _) ops (Nat.le_refl _) hl (ipLoop_lawful st hf hr _)

/-- C56 (generated IP trees). -/
theorem C56_uiptree {V : Type} [Inhabited V] (st : Bool) {f rounds : Nat} (hf : 66 ≤ f) (hr : 2 ^ 131 < rounds) (ops : List (SOp (Op V)))
    (hl : (Book.init : Book (Op V)).LegalAll2 (fun _ _ => True) (UIPHeap.uipImpl st f).inpOk ops) :
    Abandons (UIPHeap.uipImpl st f) (uipLoop f rounds V) (fun l es => UNetRight .list l (.list es)) ops :=
  loop_leaks (UIPHeap.uipImpl_lawful (V := V) st hf _) ops (Nat.le_refl _) hl (uipLoop_lawful st hf hr _)

end

section
open Verif.DomTree Verif.DomHeap

/-- C56 (domaintree). -/
theorem C56_domaintree {V : Type} (st : Bool) (ops : List (SOp (Op V))) {f rounds : Nat} (hf : 2 * ops.length + 3 ≤ f) (hk : 128 ≤ f) (hr : (ops.length + 2) ^ 128 ≤ rounds)
    (hl : (Book.init : Book (Op V)).LegalAll2 cowOk (inpOk st) ops) :
    Abandons (domImpl st f) (domLoop f rounds V) (fun l es => DomRight .list l (.list es)) ops :=
  Abandons.weaken (loop_leaks (domImpl_lawful (V := V) st hf) ops (Nat.le_refl _) hl (domLoop_lawful st hf hk hr)) fun _ _ h => h.1

end

section
open Verif.DL Verif.DLHeap

/-- C56 (dltree), RawEnumerate. -/
theorem C56_dltree {V : Type} [Inhabited V] (st : Bool) (ops : List (SOp (DL.Op V))) {f rounds : Nat} (hf : 2 * ops.length + 3 ≤ f) (hr : ops.length < rounds)
    (hl : (Book.init : Book (DL.Op V)).LegalAll2 dlCow (dlInp st) ops) :
    Abandons (dlImpl st f) (dlRawLoop f rounds V) (fun l es => LabelRight .list l (.list es)) ops :=
  Abandons.weaken (loop_leaks (dlImpl_lawful (V := V) st hf) ops (Nat.le_refl _) hl (dlRawLoop_lawful st hf hr)) fun _ _ h => h.1

end

/-! ## A concrete case -/

section
open Verif.Num Verif.NumHeap

/-- Whether all that is left are goroutines waiting to send. -/
def allWait {D X B α : Type} (s : Sys D X B α) : Bool := s.kids.all fun | .mk (.send _ _) [] => true | _ => false

/-- One of the two entries taken: the caller is through, the goroutine waits to send the other. -/
example : (match OStore.init.exec (numImpl 34 32 Nat).toO numTwo with
    | .ok s => match s.roots[2]? with
      | some r =>
        let s := drive id false 100 ⟨s.heap, takeMain ((numLoop 34 (2 ^ 33) 32 Nat).gen r) 1, []⟩
        (s.answer.map List.length, allWait s, s.kids.length)
      | none => (none, false, 0)
    | .error _ => (none, false, 0)) = (some 1, true, 1) := by decide +kernel

/-- The case meets the hypotheses. -/
example : (Book.init : Book (NumOp 32 Nat)).LegalAll2 (numImpl 34 32 Nat).toO.cowOk (numImpl 34 32 Nat).toO.inpOk numTwo :=
  ⟨trivial, fun _ _ => trivial, fun _ _ => trivial, trivial⟩

end

end Verif.Props
