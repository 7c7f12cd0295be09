import Verif.Heap.RelayOwn
import Verif.Props.BlindReads
import Verif.Props.DomaintreeHeap
import Verif.Props.IptreeHeap

/-!
# Property theorems for goroutines that hand trees to each other (C104)

Any number of goroutines, with one memory and no lock, make trees, derive trees from trees, insert in place, ask, and pass trees to each other through mailboxes (channels); what they do next
may depend on answers and on which mailboxes are empty.  An in-place insertion is allowed on a tree that shares its origin with no other tree that any goroutine holds or that is on its way
(`Relay.Legal`).  Then at every time of every schedule (`Relay.Fine`): no call has panicked, every answer given is right for the calls that made the tree asked, whoever made them; so are
the trees held and those on their way; no goroutine is about to write a cell another one is at; every turn of a goroutine in a call brings the call nearer to its end and no turn of another
puts it off.

The second theorem of each pair gives a rule every goroutine can keep to by itself (`Errand.Owns`): insert in place only into trees that are yours alone, that is, you or one who gave
the tree away whole started it, no tree of the same origin has since been sent and kept, and you have given up all others of its origin.  Then every schedule is one that is allowed.
-/

namespace Verif.Props
open Verif Verif.Heap
variable {T M : Type} [DecidableEq T] [DecidableEq M]

section Numtree
open Verif.Num Verif.NumHeap
variable {w : Nat} {V : Type} [LawfulKeySize w] [Inhabited V]

/-- C104 (numtree). -/
theorem C104_numtree {f : Nat} (hf : w + 2 ≤ f) (job : T → Errand (NumOp w V) (NumQ w) (Reply V (ND w V)) M) (sched : List T)
    (hl : (Relay.start job : Relay _ _ Ptr _ _ _ _).LegalAll (numImpl f w V).toO (numRead f) sched) :
    ((Relay.start job : Relay _ _ Ptr _ _ _ _).exec (numImpl f w V).toO (numRead f) sched).Fine (numImpl f w V).toO (numRead f) NumRight :=
  relay_fine (Impl.toO_lawful (numImpl_lawful (V := V) hf sched.length)) (numBlind f w V) (numRead f) NumRight (fun _ => Eq) (numRead_blind f) (fun _ _ _ _ _ h hy => h ▸ hy)
    (fun q h r l F _ ho => numRead_ok hf q h r l F ho) job sched (Nat.le_refl _) hl

/-- C104 (numtree), goroutines that keep to the rule. -/
theorem C104_numtree_rule {f : Nat} (hf : w + 2 ≤ f) (J : List (NumOp w V) → Prop) (h0 : J []) (own : M → Bool) (job : T → Errand (NumOp w V) (NumQ w) (Reply V (ND w V)) M)
    (hj : ∀ t, (job t).Owns (numImpl f w V).toO J own []) (sched : List T) :
    (Relay.start job : Relay _ _ Ptr _ _ _ _).LegalAll (numImpl f w V).toO (numRead f) sched ∧
      ((Relay.start job : Relay _ _ Ptr _ _ _ _).exec (numImpl f w V).toO (numRead f) sched).Fine (numImpl f w V).toO (numRead f) NumRight :=
  relay_owned (Impl.toO_lawful (numImpl_lawful (V := V) hf sched.length)) (numBlind f w V) (numRead f) NumRight (fun _ => Eq) (numRead_blind f) (fun _ _ _ _ _ h hy => h ▸ hy)
    (fun q h r l F _ ho => numRead_ok hf q h r l F ho) J h0 own job hj sched (Nat.le_refl _)

end Numtree

section Strtree
open Verif.RB Verif.RBHeap
variable {V : Type} [Inhabited V]

/-- C104 (strtree). -/
theorem C104_strtree {cmp : Bytes → Bytes → Int} (hc : LawfulCmp cmp) (job : T → Errand (KOp Bytes V) KVQ (Reply V (Bytes × V)) M) (sched : List T) {f : Nat} (hf : 2 * sched.length + 3 ≤ f)
    (hl : (Relay.start job : Relay _ _ Ptr _ _ _ _).LegalAll (rbImpl cmp f).toO (kvRead cmp f) sched) :
    ((Relay.start job : Relay _ _ Ptr _ _ _ _).exec (rbImpl cmp f).toO (kvRead cmp f) sched).Fine (rbImpl cmp f).toO (kvRead cmp f) (KVRight cmp) :=
  relay_fine (Impl.toO_lawful (rbImpl_lawful (V := V) hc.refl hf)) (rbBlind cmp f) (kvRead cmp f) (KVRight cmp) (fun _ => Eq) (kvRead_blind cmp f) (fun _ _ _ _ _ h hy => h ▸ hy)
    (fun q h r l F hn ho => kvRead_ok hc hf q h r l F hn ho) job sched (Nat.le_refl _) hl

/-- C104 (strtree), goroutines that keep to the rule. -/
theorem C104_strtree_rule {cmp : Bytes → Bytes → Int} (hc : LawfulCmp cmp) (sched : List T) {f : Nat} (hf : 2 * sched.length + 3 ≤ f) (J : List (KOp Bytes V) → Prop) (h0 : J []) (own : M → Bool)
    (job : T → Errand (KOp Bytes V) KVQ (Reply V (Bytes × V)) M) (hj : ∀ t, (job t).Owns (rbImpl cmp f).toO J own []) :
    (Relay.start job : Relay _ _ Ptr _ _ _ _).LegalAll (rbImpl cmp f).toO (kvRead cmp f) sched ∧
      ((Relay.start job : Relay _ _ Ptr _ _ _ _).exec (rbImpl cmp f).toO (kvRead cmp f) sched).Fine (rbImpl cmp f).toO (kvRead cmp f) (KVRight cmp) :=
  relay_owned (Impl.toO_lawful (rbImpl_lawful (V := V) hc.refl hf)) (rbBlind cmp f) (kvRead cmp f) (KVRight cmp) (fun _ => Eq) (kvRead_blind cmp f) (fun _ _ _ _ _ h hy => h ▸ hy)
    (fun q h r l F hn ho => kvRead_ok hc hf q h r l F hn ho) J h0 own job hj sched (Nat.le_refl _)

end Strtree

section Dltree
open Verif.RBHeap Verif.DLHeap
variable {V : Type} [Inhabited V]

/-- C104 (dltree). -/
theorem C104_dltree (st : Bool) (job : T → Errand (DL.Op V) LabelQ (Reply V (Bytes × V)) M) (sched : List T) {f : Nat} (hf : 2 * sched.length + 3 ≤ f)
    (hl : (Relay.start job : Relay _ _ Ptr _ _ _ _).LegalAll (dlImpl st f) (labelRead f) sched) :
    ((Relay.start job : Relay _ _ Ptr _ _ _ _).exec (dlImpl st f) (labelRead f) sched).Fine (dlImpl st f) (labelRead f) LabelRight :=
  relay_fine (dlImpl_lawful (V := V) st hf) (dlBlind st f) (labelRead f) LabelRight (fun _ => Eq) (labelRead_blind st f) (fun _ _ _ _ _ h hy => h ▸ hy)
    (fun q h r l F hn ho => labelRead_ok hf q h r l F hn ho) job sched (Nat.le_refl _) hl

/-- C104 (dltree), goroutines that keep to the rule. -/
theorem C104_dltree_rule (st : Bool) (sched : List T) {f : Nat} (hf : 2 * sched.length + 3 ≤ f) (J : List (DL.Op V) → Prop) (h0 : J []) (own : M → Bool)
    (job : T → Errand (DL.Op V) LabelQ (Reply V (Bytes × V)) M) (hj : ∀ t, (job t).Owns (dlImpl st f) J own []) :
    (Relay.start job : Relay _ _ Ptr _ _ _ _).LegalAll (dlImpl st f) (labelRead f) sched ∧
      ((Relay.start job : Relay _ _ Ptr _ _ _ _).exec (dlImpl st f) (labelRead f) sched).Fine (dlImpl st f) (labelRead f) LabelRight :=
  relay_owned (dlImpl_lawful (V := V) st hf) (dlBlind st f) (labelRead f) LabelRight (fun _ => Eq) (labelRead_blind st f) (fun _ _ _ _ _ h hy => h ▸ hy)
    (fun q h r l F hn ho => labelRead_ok hf q h r l F hn ho) J h0 own job hj sched (Nat.le_refl _)

end Dltree

section Domaintree
open Verif.Domain Verif.DomTree Verif.DomHeap
variable {V : Type}

/-- C104 (domaintree). -/
theorem C104_domaintree (st : Bool) (job : T → Errand (Op V) DomQ (Reply V (Bytes × V)) M) (sched : List T) {f : Nat} (hf : 2 * sched.length + 3 ≤ f) (hk : 128 ≤ f)
    (hl : (Relay.start job : Relay _ _ Ptr _ _ _ _).LegalAll (domImpl st f) (domRead f) sched) :
    ((Relay.start job : Relay _ _ Ptr _ _ _ _).exec (domImpl st f) (domRead f) sched).Fine (domImpl st f) (domRead f) DomRight :=
  relay_fine (domImpl_lawful (V := V) st hf) (domBlind st f) (domRead f) DomRight (fun _ => Eq) (domRead_blind st f) (fun _ _ _ _ _ h hy => h ▸ hy)
    (fun q h r l F hn ho => domRead_ok hf hk q h r l F hn ho) job sched (Nat.le_refl _) hl

/-- C104 (domaintree), goroutines that keep to the rule. -/
theorem C104_domaintree_rule (st : Bool) (sched : List T) {f : Nat} (hf : 2 * sched.length + 3 ≤ f) (hk : 128 ≤ f) (J : List (Op V) → Prop) (h0 : J []) (own : M → Bool)
    (job : T → Errand (Op V) DomQ (Reply V (Bytes × V)) M) (hj : ∀ t, (job t).Owns (domImpl st f) J own []) :
    (Relay.start job : Relay _ _ Ptr _ _ _ _).LegalAll (domImpl st f) (domRead f) sched ∧
      ((Relay.start job : Relay _ _ Ptr _ _ _ _).exec (domImpl st f) (domRead f) sched).Fine (domImpl st f) (domRead f) DomRight :=
  relay_owned (domImpl_lawful (V := V) st hf) (domBlind st f) (domRead f) DomRight (fun _ => Eq) (domRead_blind st f) (fun _ _ _ _ _ h hy => h ▸ hy)
    (fun q h r l F hn ho => domRead_ok hf hk q h r l F hn ho) J h0 own job hj sched (Nat.le_refl _)

end Domaintree

section Iptree
open Verif.IP Verif.IPHeap Verif.NumHeap
variable {V : Type} [Inhabited V]

/-- C104 (iptree). -/
theorem C104_iptree (st : Bool) {f : Nat} (hf : 66 ≤ f) (job : T → Errand (Op V) NetQ (Reply (HV V) (IPNet × HV V)) M) (sched : List T)
    (hl : (Relay.start job : Relay _ _ Ptr _ _ _ _).LegalAll (ipImpl st f) (netRead f) sched) :
    ((Relay.start job : Relay _ _ Ptr _ _ _ _).exec (ipImpl st f) (netRead f) sched).Fine (ipImpl st f) (netRead f) NetRight :=
  relay_fine (ipImpl_lawful (V := V) st hf sched.length) (ipBlind st f) (netRead f) NetRight NetAlike (netRead_blind st f) netRight_alike
    (fun q h r l F _ ho => netRead_ok hf q h r l F ho) job sched (Nat.le_refl _) hl

/-- C104 (iptree), goroutines that keep to the rule. -/
theorem C104_iptree_rule (st : Bool) {f : Nat} (hf : 66 ≤ f) (J : List (Op V) → Prop) (h0 : J []) (own : M → Bool) (job : T → Errand (Op V) NetQ (Reply (HV V) (IPNet × HV V)) M)
    (hj : ∀ t, (job t).Owns (ipImpl st f) J own []) (sched : List T) :
    (Relay.start job : Relay _ _ Ptr _ _ _ _).LegalAll (ipImpl st f) (netRead f) sched ∧
      ((Relay.start job : Relay _ _ Ptr _ _ _ _).exec (ipImpl st f) (netRead f) sched).Fine (ipImpl st f) (netRead f) NetRight :=
  relay_owned (ipImpl_lawful (V := V) st hf sched.length) (ipBlind st f) (netRead f) NetRight NetAlike (netRead_blind st f) netRight_alike
    (fun q h r l F _ ho => netRead_ok hf q h r l F ho) J h0 own job hj sched (Nat.le_refl _)

end Iptree

section UIptree
open Verif.IP Verif.UIPHeap Verif.NumHeap
variable {V : Type} [Inhabited V]

/-- C104 (generated IP trees). -/
theorem C104_uiptree (st : Bool) {f : Nat} (hf : 66 ≤ f) (job : T → Errand (Op V) NetQ (Reply V (IPNet × V)) M) (sched : List T)
    (hl : (Relay.start job : Relay _ _ Ptr _ _ _ _).LegalAll (uipImpl st f) (unetRead f) sched) :
    ((Relay.start job : Relay _ _ Ptr _ _ _ _).exec (uipImpl st f) (unetRead f) sched).Fine (uipImpl st f) (unetRead f) UNetRight :=
  relay_fine (uipImpl_lawful (V := V) st hf sched.length) (uipBlind st f) (unetRead f) UNetRight (fun _ => Eq) (unetRead_blind st f) (fun _ _ _ _ _ h hy => h ▸ hy)
    (fun q h r l F _ ho => unetRead_ok hf q h r l F ho) job sched (Nat.le_refl _) hl

/-- C104 (generated IP trees), goroutines that keep to the rule. -/
theorem C104_uiptree_rule (st : Bool) {f : Nat} (hf : 66 ≤ f) (J : List (Op V) → Prop) (h0 : J []) (own : M → Bool) (job : T → Errand (Op V) NetQ (Reply V (IPNet × V)) M)
    (hj : ∀ t, (job t).Owns (uipImpl st f) J own []) (sched : List T) :
    (Relay.start job : Relay _ _ Ptr _ _ _ _).LegalAll (uipImpl st f) (unetRead f) sched ∧
      ((Relay.start job : Relay _ _ Ptr _ _ _ _).exec (uipImpl st f) (unetRead f) sched).Fine (uipImpl st f) (unetRead f) UNetRight :=
  relay_owned (uipImpl_lawful (V := V) st hf sched.length) (uipBlind st f) (unetRead f) UNetRight (fun _ => Eq) (unetRead_blind st f) (fun _ _ _ _ _ h hy => h ▸ hy)
    (fun q h r l F _ ho => unetRead_ok hf q h r l F ho) J h0 own job hj sched (Nat.le_refl _)

end UIptree

/-! ## Concrete cases -/

section
open Verif.RB Verif.RBHeap

/-- A builder fills a tree in place and gives it away; the next goroutine inserts in place into it, derives a tree from it, which it puts in its place, inserts in place into that one, shows it to
a third one and derives a tree from it; the third one derives from what it gets and asks. -/
def relayJob (f : Nat) : Fin 3 → Errand (KOp Bytes Nat) KVQ (Reply Nat (Bytes × Nat)) Bool
  | 0 => .call .fresh <| .call (.inp 0 (.insert [1] 1)) <| .call (.inp 0 (.insert [2] 2)) <| .give 0 true <| .call .fresh <| .call (.inp 0 (.insert [7] f)) <| .ask 0 .list fun _ => .done
  | 1 => .recv true <| .call (.inp 0 (.insert [3] 3)) <| .call (.cow 0 (.delete [1])) <| .call (.drop 0) <| .call (.inp 0 (.insert [5] 5)) <| .send 0 false <|
      .call (.cow 0 (.delete [3])) <| .ask 1 .list fun _ => .ask 0 .list fun _ => .done
  | 2 => .recv false <| .ask 0 (.get [2]) fun a => if a = some (.val (some 2)) then .call (.cow 0 (.insert [4] 4)) <| .ask 1 .list fun _ => .done else .done

/-- They keep to the rule, mailbox `true` being the one for trees given away. -/
theorem relayJob_rule (f n : Nat) (t : Fin 3) : (relayJob n t).Owns (rbImpl compareBytes f).toO (fun _ => True) id [] := by
  match t with
  | 0 =>
    exact ⟨0, fun _ _ => ⟨trivial, trivial⟩, Lone.one 0, fun _ _ => ⟨trivial, trivial⟩, Lone.one 0, .inl ⟨rfl, Lone.one 0, 0, fun _ _ => ⟨trivial, trivial⟩, Lone.one 0,
      fun _ => trivial⟩⟩
  | 1 =>
    exact ⟨0, fun _ _ => ⟨trivial, trivial⟩, Lone.one 0, fun _ _ => ⟨trivial, trivial⟩, fun _ _ => ⟨trivial, trivial⟩, Lone.one 0, rfl, fun _ _ => ⟨trivial, trivial⟩,
      fun _ _ => trivial⟩
  | 2 =>
    refine ⟨0, fun a => ?_⟩
    by_cases h : a = some (.val (some 2))
    all_goals simp only [h, if_true, if_false]
    · exact ⟨fun _ _ => ⟨trivial, trivial⟩, fun _ => trivial⟩
    · trivial

/-- Answers of a goroutine with the number of calls that made the tree asked. -/
def relayLog (f : Nat) (job : Fin 3 → Errand (KOp Bytes Nat) KVQ (Reply Nat (Bytes × Nat)) Bool) (sched : List (Fin 3)) : List (List (Nat × Reply Nat (Bytes × Nat))) :=
  let w := (Relay.start job : Relay _ _ Ptr _ _ _ _).exec (rbImpl compareBytes f).toO (kvRead compareBytes f) sched
  (List.finRange 3).map fun t => (w.log t).map fun x => (x.2.1.length, x.2.2)

set_option synthInstance.maxSize 1000 in
example : relayLog 20 (relayJob 7) (turns 3 600 (by decide)) =
    [[(1, .list [([7], 7)])],
      [(6, .list [([2], 2), ([5], 5)]), (5, .list [([2], 2), ([3], 3), ([5], 5)])],
      [(5, .val (some 2)), (6, .list [([2], 2), ([3], 3), ([4], 4), ([5], 5)])]] := by decide +kernel

/-- Whatever the schedule. -/
example (sched : List (Fin 3)) : let f := 2 * sched.length + 3
    ((Relay.start (relayJob 7) : Relay _ _ Ptr _ _ _ _).exec (rbImpl compareBytes f).toO (kvRead compareBytes f) sched).Fine (rbImpl compareBytes f).toO (kvRead compareBytes f) (KVRight compareBytes) :=
  (C104_strtree_rule compareBytes_lawful sched (Nat.le_refl _) (fun _ => True) trivial id (relayJob 7) (relayJob_rule _ 7)).2

/-- A goroutine that sends a tree, keeps it and goes on inserting in place. -/
def meddler : Fin 3 → Errand (KOp Bytes Nat) KVQ (Reply Nat (Bytes × Nat)) Bool
  | 0 => .call .fresh <| .call (.inp 0 (.insert [1] 1)) <| .send 0 true <| .call (.inp 0 (.insert [2] 2)) .done
  | 1 => .recv true <| .ask 0 .list fun _ => .ask 0 .list fun _ => .done
  | 2 => .done

set_option synthInstance.maxSize 1000 in
/-- The rule is needed: the goroutine that got the tree sees it change. -/
theorem C104_needs_rule : ∃ sched, relayLog 20 meddler sched = [[], [(1, .list [([1], 1)]), (1, .list [([1], 1), ([2], 2)])], []] :=
  ⟨List.replicate 8 0 ++ List.replicate 5 1 ++ List.replicate 60 0 ++ List.replicate 30 1, by decide +kernel⟩

end

section
open Verif.Domain Verif.DomTree Verif.DomHeap

/-- A domaintree filled in place by two goroutines in turn. -/
def domRelay : Fin 2 → Errand (Op Nat) DomQ (Reply Nat (Bytes × Nat)) Unit
  | 0 => .call .fresh <| .call (.inp 0 (.inplace (nm "example.com") 1)) <| .give 0 () .done
  | 1 => .recv () <| .call (.inp 0 (.inplace (nm "a.b.com") 2)) <| .ask 0 .list fun _ => .done

/-- They keep to the rule. -/
theorem domRelay_rule (f : Nat) (t : Fin 2) :
    (domRelay t).Owns (domImpl true f) (fun l => ∀ o ∈ l, Named o ∧ o.noInsert) (fun _ => true) [] := by
  have ok : ∀ (s : String) (n : Nat), MakeNameFromString (txt s) = .ok (nm s) → ∀ l : List (Op Nat), (∀ o ∈ l, Named o ∧ o.noInsert) →
      inpOk true l (.inplace (nm s) n) ∧ ∀ o ∈ Op.inplace (nm s) n :: l, Named o ∧ o.noInsert := fun s n hs l hl => by
    refine ⟨C34_covered_partial l hl (nm s) n ⟨txt s, hs⟩, fun o ho => ?_⟩
    rcases List.mem_cons.1 ho with rfl | ho
    · exact ⟨⟨txt s, hs⟩, trivial⟩
    · exact hl o ho
  match t with
  | 0 => exact ⟨0, ok "example.com" 1 (by decide +kernel), Lone.one 0, .inl ⟨rfl, Lone.one 0, trivial⟩⟩
  | 1 => exact ⟨0, ok "a.b.com" 2 (by decide +kernel), Lone.one 0, fun _ => trivial⟩

def domRelayLog (sched : List (Fin 2)) : List (List (Reply Nat (Bytes × Nat))) :=
  let w := (Relay.start domRelay : Relay _ _ Ptr _ _ _ _).exec (domImpl true 128) (domRead 128) sched
  (List.finRange 2).map fun t => (w.log t).map fun x => x.2.2

set_option synthInstance.maxSize 1000 in
example : domRelayLog (turns 2 400 (by decide)) = [[], [.list [(txt "a.b.com", 2), (txt "example.com", 1)]]] := by decide +kernel

end

section
open Verif.IP Verif.IPHeap Verif.NumHeap

/-- An iptree filled in place, given away and derived from. -/
def ipRelay : Fin 2 → Errand (Op Nat) NetQ (Reply (HV Nat) (IPNet × HV Nat)) Unit
  | 0 => .call .fresh <| .call (.inp 0 (.insertNet (some (net6 0x20 0x01 0 1 128)) 7)) <| .give 0 () .done
  | 1 => .recv () <| .call (.inp 0 (.insertNet (some (net6 0x20 0x01 0 0 80)) 8)) <| .call (.cow 0 (.deleteByNet (some (net6 0x20 0x01 0 0 100)))) <|
      .ask 0 .list fun _ => .ask 1 .list fun _ => .done

theorem ipRelay_rule (f : Nat) (t : Fin 2) : (ipRelay t).Owns (ipImpl true f) (fun _ => True) (fun _ => true) [] := by
  match t with
  | 0 => exact ⟨0, fun _ _ => ⟨⟨rfl, trivial⟩, trivial⟩, Lone.one 0, .inl ⟨rfl, Lone.one 0, trivial⟩⟩
  | 1 => exact ⟨0, fun _ _ => ⟨⟨rfl, trivial⟩, trivial⟩, Lone.one 0, fun _ _ => ⟨trivial, trivial⟩, fun _ _ => trivial⟩

def ipRelayLog (sched : List (Fin 2)) : List (List (List (HV Nat))) :=
  let w := (Relay.start ipRelay : Relay _ _ Ptr _ _ _ _).exec (ipImpl true 66) (netRead 66) sched
  (List.finRange 2).map fun t => (w.log t).map fun x => match x.2.2 with | .list l => l.map Prod.snd | .val _ => []

example : ipRelayLog (turns 2 600 (by decide)) = [[], [[.user 8, .user 7], [.user 8]]] := by decide +kernel

end

end Verif.Props
