import Verif.DomHeap.Blind
import Verif.IPHeap.Blind
import Verif.UIPHeap.Blind
import Verif.Props.SharedInsert
import Verif.Props.SharedIptree
import Verif.Props.SharedUIptree
import Verif.Props.Quarantine

/-!
# Property theorems for trees of one origin, with and without the calls on all others (C102)

Nothing is asked of a history here: InplaceInsert may be called on trees that share nodes with others, arguments may be malformed, calls may panic and be recovered from
(`false` in the list), trees may be damaged until a search runs round a cycle.  `Book.only o` leaves out of a history every call on a tree that does not come from starting tree
number `o`; where such a call returned a tree there is a new empty tree, so that positions mean the same.  The theorems say that this makes no difference to the
trees that come from starting tree `o`: whatever is called on one of them then comes to the same, the same result, the same panic, or no end in both cases
(`Prog.comes`; `g` is any bound on the number of turns of a loop).
-/

namespace Verif.Props
open Verif Verif.Heap
variable {V D O : Type}

/-- The history without the calls on other origins than `o` can be made, gives as many trees, and its trees of origin `o` are like those of the history with these calls. -/
def SameAlone (I : OImpl D O Ptr) (o : Nat) (ops : List (SOp O × Bool)) (s : OStore D Ptr) (Alike : Heap D → Ptr → Heap D → Ptr → Prop) : Prop :=
  ∃ s', OStore.init.execR I ((Book.init : Book O).only o ops) = some s' ∧ s'.roots.length = s.roots.length ∧
    ∀ (i : Nat) v r, (Book.init.exec (returned ops)).vs[i]? = some v → v.1 = o → s.roots[i]? = some r → ∃ r', s'.roots[i]? = some r' ∧ Alike s.heap r s'.heap r'

/-- Two calls on two trees come to the same, as far as `see` shows their results: both return and show the same, or both fail in the same way. -/
def Same {α β : Type} (see : α → β) (p : Ptr → Prog D α) (h : Heap D) (r : Ptr) (h' : Heap D) (r' : Ptr) : Prop :=
  ((p r).comes h).map see = ((p r').comes h').map see

theorem same_of {α β : Type} {see : α → β} {p : Ptr → Prog D α} {h h' : Heap D} {r r' : Ptr} {P : (Addr → Addr → Prop) → α → α → Prop} (hs : ∀ ρ x y, P ρ x y → see x = see y)
    (hp : ∃ ρ, ResR (P ρ) ((p r).comes h) ((p r').comes h')) : Same see p h r h' r' := by
  obtain ⟨ρ, hp⟩ := hp
  unfold Same
  cases e : (p r).comes h <;> cases e' : (p r').comes h' <;> rw [e, e'] at hp
  · simp only [ResR] at hp; rw [hp]
  · exact hp.elim
  · exact hp.elim
  · simp only [Except.map, hs ρ _ _ hp]

/-- Nothing of a result, only that the call returned. -/
abbrev unseen {α : Type} (_ : α) : Unit := ()

section strtree
open Verif.RB Verif.RBHeap

/-- Every call on the two trees comes to the same. -/
def StrAlike [Inhabited V] (cmp : Bytes → Bytes → Int) (h : Heap (RD Bytes V)) (r : Ptr) (h' : Heap (RD Bytes V)) (r' : Ptr) : Prop :=
  ∀ g : Nat, (∀ k, Same id (getP cmp g · k) h r h' r') ∧ Same id (enumerateP g) h r h' r' ∧ (∀ k, Same Prod.snd (delP cmp g · k) h r h' r') ∧
    (∀ k v, Same unseen (insertP cmp g · k v) h r h' r') ∧ ∀ k v, Same unseen (inplaceInsertP cmp g · k v) h r h' r'

/-- C102 (strtree, any comparison). -/
theorem C102_strtree [Inhabited V] (cmp : Bytes → Bytes → Int) (f o : Nat) (ops : List (SOp (KOp Bytes V) × Bool)) {s : OStore (RD Bytes V) Ptr}
    (he : OStore.init.execR (rbImpl cmp f).toO ops = some s) : SameAlone (rbImpl cmp f).toO o ops s (StrAlike cmp) := by
  obtain ⟨s', h1, h2, h3⟩ := alone_history (rbBlind cmp f) o ops he
  refine ⟨s', h1, h2, fun i v r hv ho hr => ?_⟩
  obtain ⟨r', e, h⟩ := h3 i v r hv ho hr
  refine ⟨r', e, fun g => ⟨fun k => ?_, ?_, fun k => ?_, fun k x => ?_, fun k x => ?_⟩⟩
  · exact same_of (P := fun _ => OptR Eq) (fun _ x y hx => by cases x <;> cases y <;> first | rfl | exact hx.elim | exact congrArg some hx) (h _ _ fun ρ ho r r' hr => B_getP cmp g hr k)
  · exact same_of (P := fun _ => ListR Eq) (fun _ x y hx => hx.eq) (h _ _ fun ρ ho r r' hr => B_enumerateP g hr)
  · exact same_of (P := fun ρ x y => PR ρ x.1 y.1 ∧ x.2 = y.2) (fun _ x y hx => hx.2) (h _ _ fun ρ ho r r' hr => B_delP rfl ho cmp g hr k)
  · exact same_of (P := PR) (fun _ _ _ _ => rfl) (h _ _ fun ρ ho r r' hr => B_insertP rfl ho cmp g hr k rfl)
  · exact same_of (P := PR) (fun _ _ _ _ => rfl) (h _ _ fun ρ ho r r' hr => B_inplaceInsertP rfl ho cmp g hr k rfl)

end strtree

section dltree
open Verif.RBHeap Verif.DLHeap

/-- Every call on the two trees comes to the same. -/
def DlAlike [Inhabited V] (h : Heap (LD V)) (r : Ptr) (h' : Heap (LD V)) (r' : Ptr) : Prop :=
  ∀ g : Nat, (∀ k, Same id (GetP lm g · k) h r h' r' ∧ Same id (RawGetP lm g · k) h r h' r') ∧ Same id (EnumerateP lm g) h r h' r' ∧ Same id (RawEnumerateP lm g) h r h' r' ∧
    (∀ k, Same Prod.snd (DeleteP lm g · k) h r h' r' ∧ Same Prod.snd (RawDeleteP lm g · k) h r h' r') ∧
    (∀ k v, Same unseen (InsertP lm g · k v) h r h' r' ∧ Same unseen (RawInsertP lm g · k v) h r h' r') ∧
    ∀ k v, Same unseen (InplaceInsertP lm g · k v) h r h' r' ∧ Same unseen (RawInplaceInsertP lm g · k v) h r h' r'

/-- C102 (dltree). -/
theorem C102_dltree [Inhabited V] (st : Bool) (f o : Nat) (ops : List (SOp (DL.Op V) × Bool)) {s : OStore (LD V) Ptr}
    (he : OStore.init.execR (dlImpl st f) ops = some s) : SameAlone (dlImpl st f) o ops s DlAlike := by
  obtain ⟨s', h1, h2, h3⟩ := alone_history (dlBlind st f) o ops he
  refine ⟨s', h1, h2, fun i v r hv ho hr => ?_⟩
  obtain ⟨r', e, h⟩ := h3 i v r hv ho hr
  have hopt : ∀ (_ : Addr → Addr → Prop) (x y : Option V), OptR Eq x y → id x = id y := fun _ x y hx => by cases x <;> cases y <;> first | rfl | exact hx.elim | exact congrArg some hx
  refine ⟨r', e, fun g => ⟨fun k => ⟨?_, ?_⟩, ?_, ?_, fun k => ⟨?_, ?_⟩, fun k x => ⟨?_, ?_⟩, fun k x => ⟨?_, ?_⟩⟩⟩
  · exact same_of (P := fun _ => OptR Eq) hopt (h _ _ fun ρ ho r r' hr => B_GetP (lrel ρ) g hr k)
  · exact same_of (P := fun _ => OptR Eq) hopt (h _ _ fun ρ ho r r' hr => B_RawGetP (lrel ρ) g hr k)
  · exact same_of (P := fun _ => ListR Eq) (fun _ x y hx => hx.eq) (h _ _ fun ρ ho r r' hr => B_EnumerateP (lrel ρ) g hr)
  · exact same_of (P := fun _ => ListR Eq) (fun _ x y hx => hx.eq) (h _ _ fun ρ ho r r' hr => B_RawEnumerateP (lrel ρ) g hr)
  · exact same_of (P := fun ρ x y => PR ρ x.1 y.1 ∧ x.2 = y.2) (fun _ x y hx => hx.2) (h _ _ fun ρ ho r r' hr => B_DeleteP (lrel ρ) rfl ho g hr k)
  · exact same_of (P := fun ρ x y => PR ρ x.1 y.1 ∧ x.2 = y.2) (fun _ x y hx => hx.2) (h _ _ fun ρ ho r r' hr => B_RawDeleteP (lrel ρ) rfl ho g hr k)
  · exact same_of (P := PR) (fun _ _ _ _ => rfl) (h _ _ fun ρ ho r r' hr => B_InsertP (lrel ρ) rfl ho g hr k rfl)
  · exact same_of (P := PR) (fun _ _ _ _ => rfl) (h _ _ fun ρ ho r r' hr => B_RawInsertP (lrel ρ) rfl ho g hr k rfl)
  · exact same_of (P := fun _ _ _ => True) (fun _ _ _ _ => rfl) (h _ _ fun ρ ho r r' hr => B_InplaceInsertP (lrel ρ) rfl ho g hr k rfl)
  · exact same_of (P := fun _ _ _ => True) (fun _ _ _ _ => rfl) (h _ _ fun ρ ho r r' hr => B_RawInplaceInsertP (lrel ρ) rfl ho g hr k rfl)

end dltree

section domaintree
open Verif.DomHeap

/-- Every call on the two trees comes to the same. -/
def DomAlike (h : Heap (DD V)) (r : Ptr) (h' : Heap (DD V)) (r' : Ptr) : Prop :=
  ∀ g : Nat, (∀ d, Same id (GetP g · d) h r h' r') ∧ Same id (EnumerateTreeP g) h r h' r' ∧ (∀ d, Same Prod.snd (DeleteP g · d) h r h' r') ∧
    (∀ d, Same Prod.snd (DeleteSubdomainsP g · d) h r h' r') ∧ (∀ d v, Same unseen (InsertP g · d v) h r h' r') ∧ ∀ d v, Same unseen (InplaceInsertP g · d v) h r h' r'

/-- C102 (domaintree). -/
theorem C102_domaintree (st : Bool) (f o : Nat) (ops : List (SOp (DomTree.Op V) × Bool)) {s : OStore (DD V) Ptr}
    (he : OStore.init.execR (domImpl st f) ops = some s) : SameAlone (domImpl st f) o ops s DomAlike := by
  obtain ⟨s', h1, h2, h3⟩ := alone_history (domBlind st f) o ops he
  refine ⟨s', h1, h2, fun i v r hv ho hr => ?_⟩
  obtain ⟨r', e, h⟩ := h3 i v r hv ho hr
  refine ⟨r', e, fun g => ⟨fun d => ?_, ?_, fun d => ?_, fun d => ?_, fun d x => ?_, fun d x => ?_⟩⟩
  · exact same_of (P := fun _ => Eq) (fun _ x y hx => hx) (h _ _ fun ρ ho r r' hr => B_GetP g hr d)
  · exact same_of (P := fun _ => Eq) (fun _ x y hx => hx) (h _ _ fun ρ ho r r' hr => B_EnumerateTreeP g hr)
  · exact same_of (P := DelR) (fun _ x y hx => hx.2) (h _ _ fun ρ ho r r' hr => B_DeleteP ho g hr d)
  · exact same_of (P := DelR) (fun _ x y hx => hx.2) (h _ _ fun ρ ho r r' hr => B_DeleteSubdomainsP ho g hr d)
  · exact same_of (P := PR) (fun _ _ _ _ => rfl) (h _ _ fun ρ ho r r' hr => B_InsertP ho g hr d x)
  · exact same_of (P := fun _ _ _ => True) (fun _ _ _ _ => rfl) (h _ _ fun ρ ho r r' hr => B_InplaceInsertP ho g hr d x)

end domaintree

section numtree
open Verif.Num Verif.NumHeap
variable {w : Nat} [LawfulKeySize w] [Inhabited V]

/-- Every call on the two trees comes to the same. -/
def NumAlike (h : Heap (ND w V)) (r : Ptr) (h' : Heap (ND w V)) (r' : Ptr) : Prop :=
  ∀ g : Nat, (∀ k b, Same id (MatchP g · k b) h r h' r') ∧ (∀ k b, Same id (ExactMatchP g · k b) h r h' r') ∧ Same id (EnumerateP g) h r h' r' ∧
    (∀ k b, Same Prod.snd (DeleteP g · k b) h r h' r') ∧ (∀ k b v, Same unseen (InsertP g · k b v) h r h' r') ∧ ∀ k b v, Same unseen (InplaceInsertP g · k b v) h r h' r'

omit [Inhabited V] in
theorem opt_eq {x y : Option V} (hx : NOptR Eq x y) : x = y := by cases x <;> cases y <;> first | rfl | exact hx.elim | exact congrArg some hx

/-- C102 (numtree). -/
theorem C102_numtree (f o : Nat) (ops : List (SOp (NumOp w V) × Bool)) {s : OStore (ND w V) Ptr} (he : OStore.init.execR (numImpl f w V).toO ops = some s) :
    SameAlone (numImpl f w V).toO o ops s NumAlike := by
  obtain ⟨s', h1, h2, h3⟩ := alone_history (numBlind f w V) o ops he
  refine ⟨s', h1, h2, fun i v r hv ho hr => ?_⟩
  obtain ⟨r', e, h⟩ := h3 i v r hv ho hr
  refine ⟨r', e, fun g => ⟨fun k b => ?_, fun k b => ?_, ?_, fun k b => ?_, fun k b x => ?_, fun k b x => ?_⟩⟩
  · exact same_of (P := fun _ => NOptR Eq) (fun _ x y hx => opt_eq hx) (h _ _ fun ρ ho r r' hr => B_MatchP g hr k b)
  · exact same_of (P := fun _ => NOptR Eq) (fun _ x y hx => opt_eq hx) (h _ _ fun ρ ho r r' hr => B_ExactMatchP g hr k b)
  · exact same_of (P := fun _ => NLR Eq) (fun _ x y hx => hx.eq) (h _ _ fun ρ ho r r' hr => B_EnumerateP g hr)
  · exact same_of (P := NDelR) (fun _ x y hx => hx.2) (h _ _ fun ρ ho r r' hr => B_DeleteP g hr k b)
  · exact same_of (P := PR) (fun _ _ _ _ => rfl) (h _ _ fun ρ ho r r' hr => B_InsertP rfl g hr k b rfl)
  · exact same_of (P := PR) (fun _ _ _ _ => rfl) (h _ _ fun ρ ho r r' hr => B_InplaceInsertP rfl g hr k b rfl)

end numtree

section iptree
open Verif.IP Verif.IPHeap Verif.NumHeap
variable [Inhabited V]

/-- What a caller sees of a value: the value, or that it is a nested tree. -/
def seen : HV V → Option V
  | .user v => some v
  | .sub _ => none

/-- Every call on the two trees comes to the same. -/
def IpAlike (h : Heap (IPD V)) (r : Ptr) (h' : Heap (IPD V)) (r' : Ptr) : Prop :=
  ∀ g : Nat, (∀ n, Same (·.map seen) (GetByNetP g · n) h r h' r') ∧ Same (·.map fun p => (p.1, seen p.2)) (EnumerateTreeP g) h r h' r' ∧
    (∀ n, Same Prod.snd (DeleteByNetP g · n) h r h' r') ∧ (∀ n v, Same unseen (InsertNetP g · n v) h r h' r') ∧ ∀ n v, Same unseen (InplaceInsertNetP g · n v) h r h' r'

omit [Inhabited V] in
theorem seen_eq {ρ : Addr → Addr → Prop} {x y : HV V} (hx : HVR ρ x y) : seen x = seen y := by
  cases x <;> cases y <;> first | rfl | exact hx.elim | exact congrArg some hx

omit [Inhabited V] in
theorem seen_list {ρ : Addr → Addr → Prop} {l m : List (IPNet × HV V)} (h : ILR ρ l m) : l.map (fun p => (p.1, seen p.2)) = m.map fun p => (p.1, seen p.2) := by
  induction l generalizing m with
  | nil =>
    cases m with
    | nil => rfl
    | cons _ _ => exact h.elim
  | cons x l ih =>
    cases m with
    | nil => exact h.elim
    | cons y m => rw [List.map_cons, List.map_cons, h.1.1, seen_eq h.1.2, ih h.2]

/-- C102 (iptree).  GetByIP, DeleteByIP, InsertIP and InplaceInsertIP are the calls with the network of the address. -/
theorem C102_iptree (st : Bool) (f o : Nat) (ops : List (SOp (Op V) × Bool)) {s : OStore (IPD V) Ptr} (he : OStore.init.execR (ipImpl st f) ops = some s) :
    SameAlone (ipImpl st f) o ops s IpAlike := by
  obtain ⟨s', h1, h2, h3⟩ := alone_history (ipBlind st f) o ops he
  refine ⟨s', h1, h2, fun i v r hv ho hr => ?_⟩
  obtain ⟨r', e, h⟩ := h3 i v r hv ho hr
  refine ⟨r', e, fun g => ⟨fun n => ?_, ?_, fun n => ?_, fun n x => ?_, fun n x => ?_⟩⟩
  · refine same_of (P := fun ρ => NOptR (HVR ρ)) (fun ρ x y hx => ?_) (h _ _ fun ρ ho r r' hr => B_GetByNetP g hr n)
    cases x <;> cases y <;> first | rfl | exact hx.elim | exact congrArg some (seen_eq hx)
  · exact same_of (P := ILR) (fun _ x y hx => seen_list hx) (h _ _ fun ρ ho r r' hr => B_EnumerateTreeP g hr)
  · exact same_of (P := NDelR) (fun _ x y hx => hx.2) (h _ _ fun ρ ho r r' hr => B_DeleteByNetP g hr n)
  · exact same_of (P := PR) (fun _ _ _ _ => rfl) (h _ _ fun ρ ho r r' hr => B_InsertNetP g hr n x)
  · exact same_of (P := fun _ _ _ => True) (fun _ _ _ _ => rfl) (h _ _ fun ρ ho r r' hr => B_InplaceInsertNetP ho g hr n x)

end iptree

section uiptree
open Verif.IP Verif.UIPHeap Verif.NumHeap
variable [Inhabited V]

/-- Every call on the two trees comes to the same. -/
def UipAlike (h : Heap (UD V)) (r : Ptr) (h' : Heap (UD V)) (r' : Ptr) : Prop :=
  ∀ g : Nat, (∀ n, Same id (GetByNetP g · n) h r h' r') ∧ Same id (EnumerateTreeP g) h r h' r' ∧
    (∀ n, Same Prod.snd (DeleteByNetP g · n) h r h' r') ∧ (∀ n v, Same unseen (InsertNetP g · n v) h r h' r') ∧ ∀ n v, Same unseen (InplaceInsertNetP g · n v) h r h' r'

/-- C102 (generated IP trees). -/
theorem C102_uiptree (st : Bool) (f o : Nat) (ops : List (SOp (Op V) × Bool)) {s : OStore (UD V) Ptr} (he : OStore.init.execR (uipImpl st f) ops = some s) :
    SameAlone (uipImpl st f) o ops s UipAlike := by
  obtain ⟨s', h1, h2, h3⟩ := alone_history (uipBlind st f) o ops he
  refine ⟨s', h1, h2, fun i v r hv ho hr => ?_⟩
  obtain ⟨r', e, h⟩ := h3 i v r hv ho hr
  refine ⟨r', e, fun g => ⟨fun n => ?_, ?_, fun n => ?_, fun n x => ?_, fun n x => ?_⟩⟩
  · exact same_of (P := fun _ => NOptR Eq) (fun _ x y hx => opt_eq hx) (h _ _ fun ρ ho r r' hr => B_GetByNetP g hr n)
  · exact same_of (P := fun _ => Eq) (fun _ x y hx => hx) (h _ _ fun ρ ho r r' hr => B_EnumerateTreeP g hr)
  · exact same_of (P := NDelR) (fun _ x y hx => hx.2) (h _ _ fun ρ ho r r' hr => B_DeleteByNetP g hr n)
  · exact same_of (P := PR) (fun _ _ _ _ => rfl) (h _ _ fun ρ ho r r' hr => B_InsertNetP g hr n x)
  · exact same_of (P := fun _ _ _ => True) (fun _ _ _ _ => rfl) (h _ _ fun ρ ho r r' hr => B_InplaceInsertNetP ho g hr n x)

end uiptree

/-! ## Concrete cases -/

open Verif.RB Verif.RBHeap

/-- What `p` answers on every tree of a history (nothing if it does not return), and on every tree of the history without the calls on other origins than `o`. -/
def bothAlone {α : Type} (I : OImpl D O Ptr) (o : Nat) (ops : List (SOp O × Bool)) (p : Ptr → Prog D α) : Option (List (Option α) × List (Option α)) :=
  (OStore.init.execR I ops).bind fun s => (OStore.init.execR I ((Book.init : Book O).only o ops)).map fun s' => (s.roots.map fun r => answer (p r) s.heap, s'.roots.map fun r => answer (p r) s'.heap)

/-- The history of C100, in which the nodes of trees 0 and 2 come to form a cycle, without the calls on the trees 0 and 2: tree 2 is a new one. -/
example : (Book.init : Book (KOp Bytes Nat)).only 1 strQuarantine = ([.fresh, .fresh, .inp 1 (.insert [3] 50), .fresh, .inp 1 (.insert [2] 51), .cow 1 (.delete [3]),
    .cow 1 (.insert [9] 52)] : List (SOp (KOp Bytes Nat))).map (·, true) := by rfl

/-- Searching for [2, 0] in all the trees, with and without the calls on the trees 0 and 2: the search on these trees runs round the cycle.  The trees 1, 3 and 4 are those of origin 1. -/
example : bothAlone (rbImpl compareBytes 41).toO 1 strQuarantine (getP compareBytes 100 · [2, 0]) =
    some ([none, some none, none, some none, some none], [some none, some none, some none, some none, some none]) := by decide +kernel

/-- The other way round: the trees 0 and 2 are damaged in the same way when the calls on the trees 1, 3 and 4 are not made. -/
example : bothAlone (rbImpl compareBytes 41).toO 0 strQuarantine (getP compareBytes 100 · [2, 0]) =
    some ([none, some none, none, some none, some none], [none, some none, none, some none, some none]) := by decide +kernel

set_option synthInstance.maxSize 1000 in
/-- dltree: a history with a recovered panic, a copy-on-write call on tree 0. -/
example : bothAlone (DLHeap.dlImpl true 30) 1 dlQuarantine (DLHeap.RawEnumerateP DLHeap.lm 30) =
    some ([some [(txt "B", 1), (txt "C", 2), (txt "D", 4), (txt "E", 6), (txt "F", 5)], some [(txt "C", 50)],
        some [(txt "B", 3), (txt "B", 1), (txt "C", 2), (txt "D", 4), (txt "E", 6), (txt "F", 5)], some [(txt "C", 50), (txt "F", 51)]],
      [some [], some [(txt "C", 50)], some [], some [(txt "C", 50), (txt "F", 51)]]) := by decide +kernel

/-- The panic is left in when the calls on the trees 1 and 3 are left out. -/
example : ((Book.init : Book (DL.Op Nat)).only 0 dlQuarantine).map Prod.snd = [true, true, true, true, true, true, true, true, false, true] := by rfl

set_option synthInstance.maxSize 1000 in
example : bothAlone (DLHeap.dlImpl true 30) 0 dlQuarantine (DLHeap.RawEnumerateP DLHeap.lm 30) =
    some ([some [(txt "B", 1), (txt "C", 2), (txt "D", 4), (txt "E", 6), (txt "F", 5)], some [(txt "C", 50)],
        some [(txt "B", 3), (txt "B", 1), (txt "C", 2), (txt "D", 4), (txt "E", 6), (txt "F", 5)], some [(txt "C", 50), (txt "F", 51)]],
      [some [(txt "B", 1), (txt "C", 2), (txt "D", 4), (txt "E", 6), (txt "F", 5)], some [],
        some [(txt "B", 3), (txt "B", 1), (txt "C", 2), (txt "D", 4), (txt "E", 6), (txt "F", 5)], some []]) := by decide +kernel

set_option synthInstance.maxSize 1000 in
/-- domaintree, likewise. -/
example : bothAlone (DomHeap.domImpl true 128) 1 domQuarantine (DomHeap.EnumerateTreeP 128) =
    some ([some [(txt "b", 1), (txt "c", 2), (txt "d", 4), (txt "e", 6), (txt "f", 5)], some [(txt "www.c", 50)],
        some [(txt "b", 3), (txt "b", 1), (txt "c", 2), (txt "d", 4), (txt "e", 6), (txt "f", 5)], some [(txt "www.c", 50), (txt "f", 51)]],
      [some [], some [(txt "www.c", 50)], some [], some [(txt "www.c", 50), (txt "f", 51)]]) := by decide +kernel

/-- numtree: the trees 0 to 3 and 6 are of one origin, 4 and 5 of another. -/
example : bothAlone (NumHeap.numImpl 34 32 Nat).toO 0 (numKin.map (·, true)) (NumHeap.ExactMatchP 34 · 0x0A000000#32 8) =
    some ([some none, some (some 1), some (some 1), some (some 1), some none, some (some 6), some (some 7)],
      [some none, some (some 1), some (some 1), some (some 1), some none, some none, some (some 7)]) := by decide +kernel

/-- iptree: the trees 4 and 5 are of an origin of their own. -/
example : bothAlone (IPHeap.ipImpl true 66) 0 (ipShared.map (·, true)) (fun r => do let x ← IPHeap.EnumerateTreeP 66 r; pure (x.map fun p => seen p.2)) =
    some ([some [], some [some 1], some [some 6, some 1, some 2, some 4], some [some 3, some 5, some 1, some 2, some 4], some [], some [some 7]],
      [some [], some [some 1], some [some 6, some 1, some 2, some 4], some [some 3, some 5, some 1, some 2, some 4], some [], some []]) := by decide +kernel

/-- The generated trees, likewise. -/
example : bothAlone (UIPHeap.uipImpl true 66) 0 (uipShared.map (·, true)) (fun r => do let x ← UIPHeap.EnumerateTreeP 66 r; pure (x.map fun p => p.2)) =
    some ([some [], some [1], some [6, 1, 2, 4], some [3, 5, 8, 1, 2, 4], some [], some [7], some [6, 1, 2, 4]],
      [some [], some [1], some [6, 1, 2, 4], some [3, 5, 8, 1, 2, 4], some [], some [], some [6, 1, 2, 4]]) := by decide +kernel

end Verif.Props
