import Verif.Props.Goroutines
import Verif.Props.Separate

/-!
# What is asked of trees does not look at addresses

Helper lemmas for `Verif/Props/OneSupply` and `Verif/Props/Relay`: the questions of `Verif/Props/Goroutines` give the same answers on trees that differ only in the names of addresses.
-/

namespace Verif.Props
open Verif Verif.Heap

section Numtree
open Verif.Num Verif.NumHeap
variable {w : Nat} {V : Type} [LawfulKeySize w] [Inhabited V]

theorem numRead_blind (f : Nat) (ρ : Addr → Addr → Prop) (_ : One ρ) (k : NumQ w) (r r' : Ptr) (hr : (numBlind f w V).rootR ρ r r') :
    (numRead (V := V) f k r).Sim ρ ((numBlind f w V).cellR ρ) Eq (numRead (V := V) f k r') := by
  cases k with
  | exact k b => exact sim_ans (P := NOptR Eq) (f := Reply.val) (B_ExactMatchP f hr k b) fun x y h => congrArg _ (opt_eq h)
  | longest k b => exact sim_ans (P := NOptR Eq) (f := Reply.val) (B_MatchP f hr k b) fun x y h => congrArg _ (opt_eq h)
  | list => exact sim_ans (P := NLR Eq) (f := Reply.list) (B_EnumerateP f hr) fun x y h => congrArg _ h.eq

end Numtree

section Strtree
open Verif.RB Verif.RBHeap
variable {V : Type} [Inhabited V]

theorem kvRead_blind (cmp : Bytes → Bytes → Int) (f : Nat) (ρ : Addr → Addr → Prop) (_ : One ρ) (k : KVQ) (r r' : Ptr) (hr : (rbBlind (V := V) cmp f).rootR ρ r r') :
    (kvRead (V := V) cmp f k r).Sim ρ ((rbBlind (V := V) cmp f).cellR ρ) Eq (kvRead (V := V) cmp f k r') := by
  cases k with
  | get k => exact sim_ans (P := OptR Eq) (f := Reply.val) (B_getP cmp f hr k) fun x y h => congrArg _ (OptR.eq h)
  | list => exact sim_ans (P := ListR Eq) (f := Reply.list) (B_enumerateP f hr) fun x y h => congrArg _ h.eq

end Strtree

section Dltree
open Verif.RBHeap Verif.DLHeap
variable {V : Type} [Inhabited V]

theorem labelRead_blind (st : Bool) (f : Nat) (ρ : Addr → Addr → Prop) (_ : One ρ) (k : LabelQ) (r r' : Ptr) (hr : (dlBlind (V := V) st f).rootR ρ r r') :
    (labelRead (V := V) f k r).Sim ρ ((dlBlind (V := V) st f).cellR ρ) Eq (labelRead (V := V) f k r') := by
  cases k with
  | raw k => exact sim_ans (P := OptR Eq) (f := Reply.val) (B_RawGetP (lrel ρ) f hr k) fun x y h => congrArg _ (OptR.eq h)
  | get k _ _ => exact sim_ans (P := OptR Eq) (f := Reply.val) (B_GetP (lrel ρ) f hr k) fun x y h => congrArg _ (OptR.eq h)
  | list => exact sim_ans (P := ListR Eq) (f := Reply.list) (B_RawEnumerateP (lrel ρ) f hr) fun x y h => congrArg _ h.eq

end Dltree

section Domaintree
open Verif.Domain Verif.DomTree Verif.DomHeap
variable {V : Type}

theorem domRead_blind (st : Bool) (f : Nat) (ρ : Addr → Addr → Prop) (_ : One ρ) (k : DomQ) (r r' : Ptr) (hr : (domBlind (V := V) st f).rootR ρ r r') :
    (domRead (V := V) f k r).Sim ρ ((domBlind (V := V) st f).cellR ρ) Eq (domRead (V := V) f k r') := by
  cases k with
  | get d _ _ => exact sim_ans (P := Eq) (f := Reply.val) (B_GetP f hr d) fun x y h => congrArg _ h
  | list => exact sim_ans (P := Eq) (f := Reply.list) (B_EnumerateTreeP f hr) fun x y h => congrArg _ h

end Domaintree

section UIptree
open Verif.IP Verif.UIPHeap Verif.NumHeap
variable {V : Type} [Inhabited V]

theorem unetRead_blind (st : Bool) (f : Nat) (ρ : Addr → Addr → Prop) (_ : One ρ) (k : NetQ) (r r' : Ptr) (hr : (uipBlind (V := V) st f).rootR ρ r r') :
    (unetRead (V := V) f k r).Sim ρ ((uipBlind (V := V) st f).cellR ρ) Eq (unetRead (V := V) f k r') := by
  cases k with
  | get n => exact sim_ans (P := NOptR Eq) (f := Reply.val) (B_GetByNetP f hr n) fun x y h => congrArg _ (opt_eq h)
  | list => exact sim_ans (P := Eq) (f := Reply.list) (B_EnumerateTreeP f hr) fun x y h => congrArg _ h

end UIptree

section Iptree
open Verif.IP Verif.IPHeap Verif.NumHeap
variable {V : Type} [Inhabited V]

/-- The same answer, up to the names of nested trees. -/
def NetAlike (ρ : Addr → Addr → Prop) : Reply (HV V) (IPNet × HV V) → Reply (HV V) (IPNet × HV V) → Prop
  | .val x, .val y => NOptR (HVR ρ) x y
  | .list l, .list m => ILR ρ l m
  | _, _ => False

theorem netRead_blind (st : Bool) (f : Nat) (ρ : Addr → Addr → Prop) (_ : One ρ) (k : NetQ) (r r' : Ptr) (hr : (ipBlind (V := V) st f).rootR ρ r r') :
    (netRead (V := V) f k r).Sim ρ ((ipBlind (V := V) st f).cellR ρ) (NetAlike ρ) (netRead (V := V) f k r') := by
  cases k with
  | get n => exact sim_bind (B_GetByNetP f hr n) fun x y h => sim_pure h
  | list => exact sim_bind (B_EnumerateTreeP f hr) fun x y h => sim_pure h

omit [Inhabited V] in
theorem netRight_alike (ρ : Addr → Addr → Prop) (k : NetQ) (l : List (Op V)) (x y : Reply (HV V) (IPNet × HV V)) (h : NetAlike ρ x y) (hy : NetRight k l y) : NetRight k l x := by
  have hv : ∀ z : Option V, NetAlike ρ x (.val (z.map .user)) → x = .val (z.map .user) := fun z hz => by
    cases x with
    | list _ => exact hz.elim
    | val x =>
      cases x <;> cases z <;> try exact hz.elim
      · rfl
      · rename_i a b
        cases a with
        | user a => exact congrArg (fun v => Reply.val (some (HV.user v))) hz
        | sub a => exact hz.elim
  have hm : ∀ (m : List (IPNet × V)) (l : List (IPNet × HV V)), ILR ρ l (m.map fun p => (p.1, .user p.2)) → l = m.map fun p => (p.1, .user p.2) := fun m => by
    induction m with
    | nil =>
      intro l hl
      cases l with
      | nil => rfl
      | cons _ _ => exact hl.elim
    | cons p m ih =>
      intro l hl
      cases l with
      | nil => exact hl.elim
      | cons q l =>
        obtain ⟨⟨h1, h2⟩, h3⟩ := hl
        rw [ih l h3]
        obtain ⟨q1, q2⟩ := q
        cases q2 with
        | user a =>
          have h2 : a = p.2 := h2
          have h1 : q1 = p.1 := h1
          rw [h1, h2]; rfl
        | sub a => exact h2.elim
  cases k with
  | get n =>
    intro ps p1 p2
    obtain ⟨y1, y2⟩ := hy ps p1 p2
    refine ⟨fun m g p hn hm => ?_, fun hn => ?_⟩
    · obtain ⟨z, e, hz⟩ := y1 m g p hn hm
      exact ⟨z, hv z (e ▸ h), hz⟩
    · have e := y2 hn
      exact hv none (e ▸ h)
  | list =>
    intro ps p1 p2
    obtain ⟨m, e, hm'⟩ := hy ps p1 p2
    subst e
    cases x with
    | val _ => exact h.elim
    | list l' => exact ⟨m, congrArg Reply.list (hm m l' h), hm'⟩

end Iptree

end Verif.Props
