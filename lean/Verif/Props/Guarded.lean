import Verif.Heap.Guard
import Verif.Heap.Interleave
import Verif.Props.Published

/-!
# Property theorems for goroutines sharing a tree under a read-write lock (C87)

After a history of the client (as in C57) one of its trees is guarded by a `sync.RWMutex`.  Any number of goroutines `T` change it with the lock for writing, in place or
by replacing it with a copy-on-write version, and read it with the lock for reading or writing (`GAct`; what they do may depend on the answers they get).
`GuardPromise` says what they can rely on.
-/

namespace Verif.Props
open Verif Verif.Heap Prog

/-- C87 speaks about every tree of the history that shares no nodes with the other trees held, of which `J` holds: goroutines that use it under the lock get what
`GuardPromise` says, and the other trees stay as they are. -/
def SharedUnderLock {D O R K A T : Type} [DecidableEq T] (I : OImpl D O R) (Rd : K → R → Prog D A) (P : K → List O → A → Prop) (Ob : Heap D → R → List O → Prop)
    (ops : List (SOp O)) (J : List O → Prop) (act : T → GAct O K A) (sched : List T) : Prop :=
  ∃ s, OStore.init.exec I ops = .ok s ∧ ∀ (i : Nat) r v, s.roots[i]? = some r → (Book.init.exec ops).vs[i]? = some v → J v.2 →
    (∀ j u, j ≠ i → (Book.init.exec ops).vs[j]? = some u → u.1 ≠ v.1) →
    GuardPromise P Ob (GBoard.start v.2) act ((Guard.start s.heap r act).exec I Rd sched) ∧
    ∀ (j : Nat) r' u, j ≠ i → s.roots[j]? = some r' → (Book.init.exec ops).vs[j]? = some u → Ob ((Guard.start s.heap r act).exec I Rd sched).heap r' u.2

section Numtree
open Verif.Num Verif.NumHeap
variable {w : Nat} {V : Type} [LawfulKeySize w] [Inhabited V]

/-- C87 (numtree). -/
theorem C87_numtree {f : Nat} (hf : w + 2 ≤ f) (ops : List (SOp (NumOp w V)))
    (hl : (Book.init : Book (NumOp w V)).LegalAll2 (fun _ _ => True) (fun _ => (numImpl f w V).inpOk) ops)
    {T : Type} [DecidableEq T] (J : List (NumOp w V) → Prop) (act : T → GAct (NumOp w V) (NumQ w) (Reply V (ND w V)))
    (ha : ∀ t, (act t).Legal J (fun _ _ => True) (fun _ => (numImpl f w V).inpOk) NumRight .free []) (sched : List T) :
    SharedUnderLock (numImpl f w V).toO (numRead f) NumRight (fun h r l => Observes f h r (lastWrite (l.map NumOp.abs))) ops J act sched := by
  refine guard_sound (n := ops.length + sched.length) (Impl.toO_lawful (numImpl_lawful (V := V) hf _)) ops hl (numRead f) NumRight (fun h r l => Observes f h r (lastWrite (l.map NumOp.abs))) ?_ ?_ J act ha sched (Nat.le_refl _)
  · exact fun q h r l F _ ho => numRead_ok hf q h r l F ho
  · rintro h r l F _ ⟨A, rfl, a1, a2, _, _⟩
    exact observes_of_rep hf a1 a2

end Numtree

section Strtree
open Verif.RB Verif.RBHeap
variable {V : Type} [Inhabited V]

/-- C87 (strtree). -/
theorem C87_strtree {cmp : Bytes → Bytes → Int} (hc : LawfulCmp cmp) {f : Nat} (ops : List (SOp (KOp Bytes V)))
    (hl : (Book.init : Book (KOp Bytes V)).LegalAll2 (fun _ _ => True) (fun _ => (rbImpl (V := V) cmp f).inpOk) ops)
    {T : Type} [DecidableEq T] (J : List (KOp Bytes V) → Prop) (act : T → GAct (KOp Bytes V) KVQ (Reply V (Bytes × V)))
    (ha : ∀ t, (act t).Legal J (fun _ _ => True) (fun _ => (rbImpl (V := V) cmp f).inpOk) (KVRight cmp) .free []) (sched : List T) (hf : 2 * (ops.length + sched.length) + 3 ≤ f) :
    SharedUnderLock (rbImpl cmp f).toO (kvRead cmp f) (KVRight cmp) (KVObserves cmp f) ops J act sched := by
  refine guard_sound (n := ops.length + sched.length) (Impl.toO_lawful (rbImpl_lawful (V := V) hc.refl hf)) ops hl (kvRead cmp f) (KVRight cmp) (KVObserves cmp f) ?_ ?_ J act ha sched (Nat.le_refl _)
  · exact fun q h r l F hn ho => kvRead_ok hc hf q h r l F hn ho
  · rintro h r l F hn ⟨A, rfl, a1, a2, _, _⟩
    exact kvObserves_of_rep hc (by omega) hn a1 a2

end Strtree

section Iptree
open Verif.IP Verif.IPHeap
variable {V : Type} [Inhabited V]

/-- C87 (iptree). -/
theorem C87_iptree (st : Bool) {f : Nat} (hf : 66 ≤ f) (ops : List (SOp (Op V)))
    (hl : (Book.init : Book (Op V)).LegalAll2 (fun _ _ => True) (ipImpl st f).inpOk ops)
    {T : Type} [DecidableEq T] (J : List (Op V) → Prop) (act : T → GAct (Op V) NetQ (Reply (HV V) (IPNet × HV V)))
    (ha : ∀ t, (act t).Legal J (fun _ _ => True) (ipImpl st f).inpOk NetRight .free []) (sched : List T) :
    SharedUnderLock (ipImpl st f) (netRead f) NetRight (NetObserves f) ops J act sched := by
  refine guard_sound (n := ops.length + sched.length) (ipImpl_lawful (V := V) st hf _) ops hl (netRead f) NetRight (NetObserves f) ?_ ?_ J act ha sched (Nat.le_refl _)
  · exact fun q h r l F _ ho => netRead_ok hf q h r l F ho
  · rintro h r l F _ ⟨t, ht, hT⟩
    exact netObserves_of_rep hf hT ht

end Iptree

section UIptree
open Verif.IP (Op OpNet)
open Verif.UIPHeap (UD uipImpl uipImpl_lawful)
variable {V : Type} [Inhabited V]

/-- C87 (generated IP trees). -/
theorem C87_uiptree (st : Bool) {f : Nat} (hf : 66 ≤ f) (ops : List (SOp (Op V)))
    (hl : (Book.init : Book (Op V)).LegalAll2 (fun _ _ => True) (uipImpl st f).inpOk ops)
    {T : Type} [DecidableEq T] (J : List (Op V) → Prop) (act : T → GAct (Op V) NetQ (Reply V (IPNet × V)))
    (ha : ∀ t, (act t).Legal J (fun _ _ => True) (uipImpl st f).inpOk UNetRight .free []) (sched : List T) :
    SharedUnderLock (uipImpl st f) (unetRead f) UNetRight (UShows f) ops J act sched := by
  refine guard_sound (n := ops.length + sched.length) (uipImpl_lawful (V := V) st hf _) ops hl (unetRead f) UNetRight (UShows f) ?_ ?_ J act ha sched (Nat.le_refl _)
  · exact fun q h r l F _ ho => unetRead_ok hf q h r l F ho
  · rintro h r l F _ ⟨t, hT, hL, _⟩
    exact uShows_of_rep hf hT hL

end UIptree

section Domaintree
open Verif.Domain Verif.DomTree Verif.DomHeap
variable {V : Type}

/-- C87 (domaintree). -/
theorem C87_domaintree (st : Bool) {f : Nat} (hk : 128 ≤ f) (ops : List (SOp (Op V)))
    (hl : (Book.init : Book (Op V)).LegalAll2 cowOk (inpOk st) ops)
    {T : Type} [DecidableEq T] (J : List (Op V) → Prop) (act : T → GAct (Op V) DomQ (Reply V (Bytes × V)))
    (ha : ∀ t, (act t).Legal J cowOk (inpOk st) DomRight .free []) (sched : List T) (hf : 2 * (ops.length + sched.length) + 3 ≤ f) :
    SharedUnderLock (domImpl st f) (domRead f) DomRight (DomObserves f) ops J act sched := by
  refine guard_sound (n := ops.length + sched.length) (domImpl_lawful (V := V) st hf) ops hl (domRead f) DomRight (DomObserves f) ?_ ?_ J act ha sched (Nat.le_refl _)
  · exact fun q h r l F hn ho => domRead_ok hf hk q h r l F hn ho
  · rintro h r l F hn ho
    exact domObserves_of_rep (by omega) hk ho

end Domaintree

section Dltree
open Verif.DL Verif.DLHeap
variable {V : Type} [Inhabited V]

/-- C87 (dltree). -/
theorem C87_dltree (st : Bool) {f : Nat} (ops : List (SOp (DL.Op V)))
    (hl : (Book.init : Book (DL.Op V)).LegalAll2 dlCow (dlInp st) ops)
    {T : Type} [DecidableEq T] (J : List (DL.Op V) → Prop) (act : T → GAct (DL.Op V) LabelQ (Reply V (Bytes × V)))
    (ha : ∀ t, (act t).Legal J dlCow (dlInp st) LabelRight .free []) (sched : List T) (hf : 2 * (ops.length + sched.length) + 3 ≤ f) :
    SharedUnderLock (dlImpl st f) (labelRead f) LabelRight (DLShows f) ops J act sched := by
  refine guard_sound (n := ops.length + sched.length) (dlImpl_lawful (V := V) st hf) ops hl (labelRead f) LabelRight (DLShows f) ?_ ?_ J act ha sched (Nat.le_refl _)
  · exact fun q h r l F hn ho => labelRead_ok hf q h r l F hn ho
  · rintro h r l F hn ho
    exact dlShows_of_obj (by omega) ho

end Dltree

/-! ## Concrete cases -/

/-- The end of a schedule, after a history whose tree `i` is shared. -/
def guardEnd {D O R K A : Type} (I : OImpl D O R) (Rd : K → R → Prog D A) (ops : List (SOp O)) (i n : Nat) (act : Fin n → GAct O K A) (sched : List (Fin n)) :
    Option (Guard D (Fin n) O R K A) :=
  match OStore.init.exec I ops with
  | .ok s => (s.roots[i]?).map fun r => (Guard.start s.heap r act).exec I Rd sched
  | .error _ => none

/-- Whether goroutine `t` has come to its end. -/
def guardOver {D T O R K A : Type} (s : Guard D T O R K A) (t : T) : Bool := match s.th t with
  | .idle .done => true
  | _ => false

/-- What the goroutines have when the schedule is over: for every goroutine the answers it got, if it has come to its end. -/
def guardFinals {D O R K A : Type} (I : OImpl D O R) (Rd : K → R → Prog D A) (ops : List (SOp O)) (i n : Nat) (act : Fin n → GAct O K A) (sched : List (Fin n)) :
    Option (List (Option (List A))) :=
  (guardEnd I Rd ops i n act sched).map fun s => (List.finRange n).map fun t => if guardOver s t then some (s.log.filterMap fun
    | .answer u _ a => if u = t then some a else none
    | _ => none) else none

instance {V L : Type} [DecidableEq V] [DecidableEq L] : DecidableEq (List (Reply V L)) := inferInstance

section
open Verif.RB Verif.RBHeap

/-- The value in a reply, if any. -/
def replyNat : Reply Nat (Bytes × Nat) → Nat
  | .val (some n) => n
  | _ => 0

/-- A goroutine that counts key 1 up, in place, then `c`. -/
def countUp (c : GAct (KOp Bytes Nat) KVQ (Reply Nat (Bytes × Nat))) : GAct (KOp Bytes Nat) KVQ (Reply Nat (Bytes × Nat)) :=
  .lock (.read (.get [1]) fun a => .change false (.insert [1] (replyNat a + 1)) (.unlock c))

/-- Two goroutines count up twice each; one looks twice under the same lock, then removes key 2 and looks again. -/
def counters : Fin 3 → GAct (KOp Bytes Nat) KVQ (Reply Nat (Bytes × Nat))
  | 0 => countUp (countUp .done)
  | 1 => countUp (countUp (.rlock (.read (.get [1]) fun _ => .runlock .done)))
  | 2 => .rlock (.read .list fun _ => .read .list fun _ => .runlock (.lock (.change true (.delete [2]) (.unlock (.rlock (.read .list fun _ => .runlock .done))))))

/-- No count is lost, and the two looks under one lock agree. -/
example : guardFinals (rbImpl compareBytes 2000).toO (kvRead compareBytes 2000) [.fresh, .inp 0 (.insert [2] 2), .inp 0 (.insert [1] 0)] 0 3 counters (turns 3 600 (by decide)) =
    some [some [.val (some 0), .val (some 2)], some [.val (some 1), .val (some 3), .val (some 4)],
      some [.list [([1], 2), ([2], 2)], .list [([1], 2), ([2], 2)], .list [([1], 4)]]] := by decide +kernel

/-- The case meets the hypotheses. -/
example : ∀ t, (counters t).Legal (fun _ => True) (fun _ _ => True) (fun _ => (rbImpl (V := Nat) compareBytes 2000).inpOk) (KVRight compareBytes) .free [] := by
  have up : ∀ c : GAct (KOp Bytes Nat) KVQ (Reply Nat (Bytes × Nat)),
      c.Legal (fun _ => True) (fun _ _ => True) (fun _ => (rbImpl (V := Nat) compareBytes 2000).inpOk) (KVRight compareBytes) .free [] →
      (countUp c).Legal (fun _ => True) (fun _ _ => True) (fun _ => (rbImpl (V := Nat) compareBytes 2000).inpOk) (KVRight compareBytes) .free [] :=
    fun c hc => ⟨rfl, fun _ _ => ⟨by simp, fun _ _ => ⟨rfl, trivial, rfl, trivial, hc⟩⟩⟩
  intro t
  match t with
  | 0 => exact up _ (up _ rfl)
  | 1 => exact up _ (up _ ⟨rfl, fun _ _ => ⟨by simp, fun _ _ => ⟨rfl, rfl⟩⟩⟩)
  | 2 => exact ⟨rfl, fun _ _ => ⟨by simp, fun _ _ => ⟨by simp, fun _ _ => ⟨rfl, rfl, fun _ _ => ⟨rfl, trivial, rfl, trivial, rfl, fun _ _ => ⟨by simp, fun _ _ => ⟨rfl, rfl⟩⟩⟩⟩⟩⟩⟩

example : (Book.init : Book (KOp Bytes Nat)).LegalAll2 (fun _ _ => True) (fun _ => (rbImpl (V := Nat) compareBytes 2000).inpOk)
    [.fresh, .inp 0 (.insert [2] 2), .inp 0 (.insert [1] 0)] := by
  refine ⟨trivial, fun v _ => ⟨trivial, ?_⟩, fun v _ => ⟨trivial, ?_⟩, trivial⟩ <;>
  · intro j u hj hu
    rcases j with _ | j
    · exact absurd rfl hj
    · simp [Book.init, Book.step] at hu

/-- Covered, but not what a counter needs: the value is read in one section and written in the next, so an update is lost. -/
def carelessUp (c : GAct (KOp Bytes Nat) KVQ (Reply Nat (Bytes × Nat))) : GAct (KOp Bytes Nat) KVQ (Reply Nat (Bytes × Nat)) :=
  .rlock (.read (.get [1]) fun a => .runlock (.lock (.change false (.insert [1] (replyNat a + 1)) (.unlock c))))

example : guardFinals (rbImpl compareBytes 2000).toO (kvRead compareBytes 2000) [.fresh, .inp 0 (.insert [1] 0)] 0 2
    (fun _ => carelessUp (.rlock (.read (.get [1]) fun _ => .runlock .done))) (turns 2 300 (by decide)) =
    some [some [.val (some 0), .val (some 1)], some [.val (some 0), .val (some 1)]] := by decide +kernel

end

section
open Verif.Num Verif.NumHeap

/-- One goroutine fills a numtree in place, one looks. -/
def numLocked : Fin 2 → GAct (NumOp 32 Nat) (NumQ 32) (Reply Nat (ND 32 Nat))
  | 0 => .lock (.change false (.insert 0x0A000000#32 8 1) (.change false (.insert 0x0A010000#32 16 2) (.unlock .done)))
  | 1 => .rlock (.read (.longest 0x0A010203#32 32) fun _ => .runlock (.rlock (.read (.longest 0x0A010203#32 32) fun _ => .runlock .done)))

/-- The second look comes after the section of goroutine 0, which waits for the first. -/
example : guardFinals (numImpl 34 32 Nat).toO (numRead 34) [.fresh] 0 2 numLocked (1 :: 1 :: turns 2 120 (by decide)) =
    some [some [], some [.val none, .val (some 2)]] := by decide +kernel

example : ∀ t, (numLocked t).Legal (fun _ => True) (fun _ _ => True) (fun _ => (numImpl 34 32 Nat).inpOk) NumRight .free [] := by
  intro t
  match t with
  | 0 => exact ⟨rfl, fun _ _ => ⟨rfl, trivial, rfl, trivial, rfl, trivial, rfl⟩⟩
  | 1 => exact ⟨rfl, fun _ _ => ⟨by simp, fun _ _ => ⟨rfl, rfl, fun _ _ => ⟨by simp, fun _ _ => ⟨rfl, rfl⟩⟩⟩⟩⟩

end

section
open Verif.DL Verif.DLHeap

/-- With a condition `J` on the tree: in-place insertion into a dltree started as a nil `*Tree` is covered once something has been inserted. -/
example (v : Nat) (h : ∃ k, OpMeans (.rawInsert [65] v : DL.Op Nat) k) :
    (GAct.lock (.change false (.rawInsert [65] v) (.unlock .done)) : GAct (DL.Op Nat) LabelQ (Reply Nat (Bytes × Nat))).Legal
      (fun l => ∃ p ∈ l, IsIns p) dlCow (dlInp false) LabelRight .free [] :=
  ⟨rfl, fun _ hl => ⟨rfl, ⟨h, trivial, .inr hl⟩, rfl, ⟨_, List.mem_cons_self .., trivial⟩, rfl⟩⟩

end

/-! ## Why readers need the lock -/

/-- A reader and an in-place call `o` on the first tree of a history, without a lock: the call makes `j` accesses, then the reader all of its, then the call the rest.
What the reader would get before, what it gets, and what it would get after. -/
def unlocked {D O R A : Type} (I : OImpl D O R) (ops : List (SOp O)) (rd : R → Prog D A) (o : O) (j : Nat) : Option (Option A × A × Option A) :=
  match OStore.init.exec I ops with
  | .error _ => none
  | .ok s => (s.roots[0]?).bind fun r =>
    let e := (Duo.mk (rd r) (I.inp o r) s.heap).exec (List.replicate j false ++ List.replicate 40 true ++ List.replicate 100 false)
    match e.reader, e.writer with
    | .ret a, .ret r' => some (answer (rd r) s.heap, a, answer (rd r') e.heap)
    | _, _ => none

/-- C87 (strtree), why the lock: a Get beside an InplaceInsert of another key can miss a key that is in the tree before and after. -/
theorem C87_strtree_needs_lock :
    unlocked (RBHeap.rbImpl compareBytes 20).toO [.fresh, .inp 0 (.insert [1] 1), .inp 0 (.insert [2] 2)] (fun r => RBHeap.getP compareBytes 20 r [2]) (.insert [3] 3) 22 =
      some (some (some 2), none, some (some 2)) := by decide +kernel

/-- C87 (dltree), why the lock. -/
theorem C87_dltree_needs_lock :
    unlocked (DLHeap.dlImpl true 20) [.fresh, .inp 0 (.rawInsert [65] 1), .inp 0 (.rawInsert [66] 2)] (fun r => DLHeap.RawGetP DLHeap.lm 20 r [66]) (.rawInsert [67] 3) 23 =
      some (some (some 2), none, some (some 2)) := by decide +kernel

/-- C87 (domaintree), why the lock. -/
theorem C87_domaintree_needs_lock :
    unlocked (DomHeap.domImpl true 128) [.fresh, .inp 0 (.inplace (nm "a") 1), .inp 0 (.inplace (nm "b") 2)] (fun r => DomHeap.GetP 128 r (nm "b"))
      (.inplace (nm "c") 3) 31 = some (some (some 2), none, some (some 2)) := by decide +kernel

end Verif.Props
