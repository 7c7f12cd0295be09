import Verif.IP.Update
import Verif.IP.History

/-!
# Histories of iptree calls with `UpdateDescendants` among them

The first part is the meaning of a chain of calls, stated on network maps only.
-/

namespace Verif.IP
open Verif Verif.Num
variable {V : Type}

/-- One call.  The callback of an update answers from the calls it got so far in this update, the key and the value. -/
inductive UOp (V : Type) where
  | call (o : Op V)
  | update (n : IPNet) (cb : List (IPNet × V) → IPNet → V → V × Bool)

/-- What an insertion or deletion does to the stored networks. -/
def netApply : Option (Fam × POp V) → (Fam → PMap V) → Fam → PMap V
  | none, M => M
  | some (f, .insert p v), M => fun g => if g = f then (M g).insert p v else M g
  | some (f, .delete p), M => fun g => if g = f then (M g).delete p else M g

/-- The listing of the stored networks: in order, and exactly the stored ones. -/
def NetLists (M : Fam → PMap V) (l : List (IPNet × V)) : Prop :=
  (l.Pairwise fun a b => NetBefore a.1 b.1) ∧ (∀ x ∈ l, ∃ f p, IsCanonNet x.1 f p ∧ M f p = some x.2) ∧
  ∀ f p v, M f p = some v → ∃ x ∈ l, IsCanonNet x.1 f p ∧ x.2 = v

/-- A callback with the log of its calls. -/
def logged (cb : List (IPNet × V) → IPNet → V → V × Bool) (s : List (IPNet × V)) (k : IPNet) (v : V) : (V × Bool) × List (IPNet × V) :=
  (cb s k v, s ++ [(k, v)])

/-- The networks stored after a chain of calls (newest first): an update with a stored network changes the listing as `updateBelow`
says, with any other argument it does nothing. -/
inductive NetMeans : List (UOp V) → (Fam → PMap V) → Prop where
  | start : NetMeans [] fun _ _ => none
  | call {ops M o m} : NetMeans ops M → OpNet o m → NetMeans (.call o :: ops) (netApply m M)
  | update {ops M M' n cb f p l} : NetMeans ops M → IsNet n f p → M f p ≠ none → NetLists M l → NetLists M' (updateBelow (logged cb) f p l []).1 →
      NetMeans (.update n cb :: ops) M'
  | absent {ops M n cb f p} : NetMeans ops M → IsNet n f p → M f p = none → NetMeans (.update n cb :: ops) M
  | malformed {ops M n cb} : NetMeans ops M → (∀ f p, ¬ IsNet n f p) → NetMeans (.update n cb :: ops) M

/-- Updates covered: not an absent IPv6 network of 64 bits or more with stored networks in both halves (see `C43_false`). -/
def updOk (ops : List (UOp V)) (n : IPNet) : Prop :=
  ∀ M f p, NetMeans ops M → IsNet n f p → M f p = none → f = .v4 ∨ p.length < 64 ∨ ∃ b, ∀ q, p ++ [b] <+: q → M f q = none

/-! ## Listings are determined -/

theorem before_irrefl (a : IPNet) : ¬ NetBefore a a := by
  unfold NetBefore; omega

theorem before_trans {a b c : IPNet} (h1 : NetBefore a b) (h2 : NetBefore b c) : NetBefore a c := by
  unfold NetBefore at *; omega

theorem sorted_ext {l l' : List (IPNet × V)} (h : l.Pairwise fun a b => NetBefore a.1 b.1) (h' : l'.Pairwise fun a b => NetBefore a.1 b.1)
    (hm : ∀ x, x ∈ l ↔ x ∈ l') : l = l' := by
  induction l generalizing l' with
  | nil =>
    cases l' with
    | nil => rfl
    | cons y l' => exact absurd ((hm y).2 (by simp)) (by simp)
  | cons x l ih =>
    cases l' with
    | nil => exact absurd ((hm x).1 (by simp)) (by simp)
    | cons y l' =>
      rw [List.pairwise_cons] at h h'
      have hxy : x = y := by
        have h1 := (hm x).1 (by simp)
        have h2 := (hm y).2 (by simp)
        rw [List.mem_cons] at h1 h2
        rcases h1 with h1 | h1
        · exact h1
        · rcases h2 with h2 | h2
          · exact h2.symm
          · exact absurd (before_trans (h.1 y h2) (h'.1 x h1)) (before_irrefl _)
      subst hxy
      congr 1
      refine ih h.2 h'.2 fun z => ?_
      have := hm z
      rw [List.mem_cons, List.mem_cons] at this
      constructor
      · intro hz
        rcases this.1 (.inr hz) with rfl | q
        · exact absurd (h.1 z hz) (before_irrefl _)
        · exact q
      · intro hz
        rcases this.2 (.inr hz) with rfl | q
        · exact absurd (h'.1 z hz) (before_irrefl _)
        · exact q

theorem canon_inj {a b : IPNet} {f : Fam} {p : List Bool} (ha : IsCanonNet a f p) (hb : IsCanonNet b f p) : a = b := by
  obtain ⟨ai, am⟩ := a
  obtain ⟨bi, bm⟩ := b
  have h1 : ai = bi := bitsBE_inj (ha.2.trans hb.2.symm)
  have h2 : am = bm := bitsBE_inj (ha.1.2.2.2.1.trans hb.1.2.2.2.1.symm)
  rw [h1, h2]

theorem NetLists.mem_iff {M : Fam → PMap V} {l : List (IPNet × V)} (h : NetLists M l) (x : IPNet × V) :
    x ∈ l ↔ ∃ f p, IsCanonNet x.1 f p ∧ M f p = some x.2 := by
  refine ⟨h.2.1 x, ?_⟩
  rintro ⟨f, p, h1, h2⟩
  obtain ⟨y, hy, h3, h4⟩ := h.2.2 f p _ h2
  have : y = x := Prod.ext (canon_inj h3 h1) h4
  exact this ▸ hy

theorem NetLists.unique {M : Fam → PMap V} {l l' : List (IPNet × V)} (h : NetLists M l) (h' : NetLists M l') : l = l' :=
  sorted_ext h.1 h'.1 fun x => (h.mem_iff x).trans (h'.mem_iff x).symm

theorem NetLists.map_unique {M M' : Fam → PMap V} {l : List (IPNet × V)} (h : NetLists M l) (h' : NetLists M' l) : M = M' := by
  have key : ∀ {M M' : Fam → PMap V}, NetLists M l → NetLists M' l → ∀ f p v, M f p = some v → M' f p = some v := by
    intro M M' h h' f p v e
    obtain ⟨x, hx, h1, rfl⟩ := h.2.2 f p v e
    obtain ⟨g, q, h2, h3⟩ := h'.2.1 x hx
    obtain ⟨rfl, rfl⟩ := IsNet.unique h1.1 h2.1
    exact h3
  funext f p
  cases e : M f p with
  | some v => exact (key h h' f p v e).symm
  | none =>
    cases e' : M' f p with
    | none => rfl
    | some v => rw [key h' h f p v e'] at e; cases e

theorem lists_enumerate {t : Tree V} (h : WFT t) : NetLists (denT t) (Enumerate (some t)) :=
  ⟨enumerate_sorted h, enumerate_sound h, fun _ _ _ => enumerate_complete h⟩

/-! ## The model follows the meaning -/

variable [Inhabited V]

theorem insert_apply {t : Option (Tree V)} (h : WFT (base t)) {n : IPNet} {f : Fam} {p : List Bool} (hn : IsNet n f p) (v : V) :
    ∃ t', InsertNet t (some n) v = some (some t') ∧ WFT t' ∧ denT t' = netApply (some (f, .insert p v)) (denT (base t)) := by
  obtain ⟨t', h1, h2, h3⟩ := insertNet_ok h hn v
  refine ⟨t', h1, h2, ?_⟩
  funext g q
  rw [h3]
  by_cases hg : g = f <;> by_cases hq : q = p <;> simp [netApply, PMap.insert, hg, hq]

theorem delete_apply {t : Option (Tree V)} (h : WFT (base t)) {n : IPNet} {f : Fam} {p : List Bool} (hn : IsNet n f p) :
    ∃ t' d, DeleteByNet t (some n) = some (t', d) ∧ WFT (base t') ∧ denT (base t') = netApply (some (f, .delete p)) (denT (base t)) := by
  cases t with
  | none =>
    refine ⟨none, false, rfl, h, ?_⟩
    funext g q
    simp only [base_none, netApply, denT_new]
    by_cases hg : g = f <;> simp [hg, PMap.delete, denT_new]
  | some t =>
    obtain ⟨t', d, h1, h2, h3, _, _⟩ := deleteByNet_ok h hn
    refine ⟨some t', d, h1, h2, ?_⟩
    funext g q
    rw [base_some, h3]
    by_cases hg : g = f <;> by_cases hq : p <+: q <;> simp [netApply, PMap.delete, hg, hq]

theorem step_apply {t : Option (Tree V)} (h : WFT (base t)) {op : Op V} {o : Option (Fam × POp V)} (ho : OpNet op o) :
    ∃ t', step t op = some t' ∧ WFT (base t') ∧ denT (base t') = netApply o (denT (base t)) := by
  cases ho with
  | insertNet hn =>
    obtain ⟨t', h1, h2, h3⟩ := insert_apply h hn _
    exact ⟨some t', h1, h2, h3⟩
  | insertNil => exact ⟨t, rfl, h, rfl⟩
  | insertBad hb => exact ⟨t, insertNet_bad hb _, h, rfl⟩
  | insertIP hn =>
    obtain ⟨n, e, hn⟩ := newIPNet_of_addr hn
    obtain ⟨t', h1, h2, h3⟩ := insert_apply h hn _
    exact ⟨some t', by simpa [step, InsertIP, e] using h1, h2, h3⟩
  | insertBadIP hb => exact ⟨t, by simp [step, InsertIP, newIPNet_none hb, InsertNet], h, rfl⟩
  | deleteNet hn =>
    obtain ⟨t', d, h1, h2, h3⟩ := delete_apply h hn
    exact ⟨t', by simp [step, h1], h2, h3⟩
  | deleteNil => exact ⟨t, by cases t <;> rfl, h, rfl⟩
  | deleteBad hb => exact ⟨t, by simp [step, deleteByNet_bad hb], h, rfl⟩
  | deleteIP hn =>
    obtain ⟨n, e, hn⟩ := newIPNet_of_addr hn
    obtain ⟨t', d, h1, h2, h3⟩ := delete_apply h hn
    exact ⟨t', by simp [step, DeleteByIP, e, h1], h2, h3⟩
  | deleteBadIP hb =>
    refine ⟨t, ?_, h, rfl⟩
    simp only [step, DeleteByIP, newIPNet_none hb]
    cases t <;> rfl

omit [Inhabited V] in
/-- The meaning of an operation is unique. -/
theorem OpNet.unique {op : Op V} {o o' : Option (Fam × POp V)} (h : OpNet op o) (h' : OpNet op o') : o = o' := by
  have ha : ∀ {ip : Bytes} {f g : Fam} {p q : List Bool}, IsAddr ip f p → IsAddr ip g q → f = g ∧ p = q := by
    intro ip f g p q a b
    obtain ⟨n, e1, h1⟩ := newIPNet_of_addr a
    obtain ⟨n', e2, h2⟩ := newIPNet_of_addr b
    rw [e1] at e2; cases e2
    exact IsNet.unique h1 h2
  cases h with
  | insertNet a => cases h' with
    | insertNet b => obtain ⟨rfl, rfl⟩ := IsNet.unique a b; rfl
    | insertBad b => exact absurd a (b _ _)
  | insertNil => cases h'; rfl
  | insertBad a => cases h' with
    | insertNet b => exact absurd b (a _ _)
    | insertBad b => rfl
  | insertIP a => cases h' with
    | insertIP b => obtain ⟨rfl, rfl⟩ := ha a b; rfl
    | insertBadIP b => exact absurd a (b _ _)
  | insertBadIP a => cases h' with
    | insertIP b => exact absurd b (a _ _)
    | insertBadIP b => rfl
  | deleteNet a => cases h' with
    | deleteNet b => obtain ⟨rfl, rfl⟩ := IsNet.unique a b; rfl
    | deleteBad b => exact absurd a (b _ _)
  | deleteNil => cases h'; rfl
  | deleteBad a => cases h' with
    | deleteNet b => exact absurd b (a _ _)
    | deleteBad b => rfl
  | deleteIP a => cases h' with
    | deleteIP b => obtain ⟨rfl, rfl⟩ := ha a b; rfl
    | deleteBadIP b => exact absurd a (b _ _)
  | deleteBadIP a => cases h' with
    | deleteIP b => exact absurd b (a _ _)
    | deleteBadIP b => rfl

omit [Inhabited V] in
/-- What is left of the chain in a tree. -/
def Holds (t : Option (Tree V)) (ops : List (UOp V)) : Prop :=
  WFT (base t) ∧ (∃ M, NetMeans ops M) ∧ ∀ M, NetMeans ops M → M = denT (base t)

omit [Inhabited V] in
theorem holds_start {t : Option (Tree V)} (h : EmptyT t) : Holds t [] := by
  have hb : base t = NewTree := by rcases h with rfl | rfl <;> rfl
  refine ⟨hb ▸ wft_new, ⟨_, .start⟩, fun M hM => ?_⟩
  cases hM
  funext f p
  rw [hb]
  exact (denT_new f p).symm

theorem holds_call {t : Option (Tree V)} {ops : List (UOp V)} (h : Holds t ops) (o : Op V) : ∃ t', step t o = some t' ∧ Holds t' (.call o :: ops) := by
  obtain ⟨h1, ⟨M, hM⟩, h3⟩ := h
  obtain ⟨m, hm⟩ := OpNet.total o
  obtain ⟨t', e1, e2, e3⟩ := step_apply h1 hm
  refine ⟨t', e1, e2, ⟨_, .call hM hm⟩, fun M' hM' => ?_⟩
  cases hM' with
  | call q1 q2 =>
    rw [e3, q2.unique hm, h3 _ q1]

theorem holds_calls {t0 t : Option (Tree V)} (h0 : EmptyT t0) (ops : List (Op V)) (h : run t0 ops = some t) : Holds t (ops.map .call) := by
  induction ops generalizing t with
  | nil => cases h; exact holds_start h0
  | cons o ops ih =>
    simp only [run, Option.bind_eq_some_iff] at h
    obtain ⟨u, h1, h2⟩ := h
    obtain ⟨t', h3, h4⟩ := holds_call (ih h1) o
    rw [h2] at h3; cases h3
    exact h4

omit [Inhabited V] in
theorem holds_update {t : Tree V} {ops : List (UOp V)} (h : Holds (some t) ops) {n : IPNet} {cb : List (IPNet × V) → IPNet → V → V × Bool}
    (hok : updOk ops n) : ∃ t' s', UpdateDescendants (logged cb) (some t) (some n) [] = some (some t', s') ∧ Holds (some t') (.update n cb :: ops) := by
  obtain ⟨h1, ⟨M, hM⟩, h3⟩ := h
  have h1 : WFT t := h1
  have h3 : ∀ M, NetMeans ops M → M = denT t := h3
  obtain rfl := h3 M hM
  by_cases hn : ∃ f p, IsNet n f p
  · obtain ⟨f, p, hn⟩ := hn
    cases hd : denT t f p with
    | some v =>
      obtain ⟨t', s', e1, e2⟩ := updateDescendants_stored (logged cb) h1 hn (by rw [hd]; rfl) []
      have hw := updateDescendants_wf (logged cb) h1 e1
      have e3 : Enumerate (some t') = (updateBelow (logged cb) f p (Enumerate (some t)) []).1 := congrArg Prod.fst e2
      refine ⟨t', s', e1, hw, ⟨denT t', .update hM hn (by simp [hd]) (lists_enumerate h1) (e3 ▸ lists_enumerate hw)⟩, fun M' hM' => ?_⟩
      cases hM' with
      | @update _ M _ _ _ g q l q1 q2 q3 q4 q5 =>
        obtain rfl := h3 _ q1
        obtain ⟨rfl, rfl⟩ := IsNet.unique hn q2
        obtain rfl := q4.unique (lists_enumerate h1)
        rw [← e3] at q5
        exact q5.map_unique (lists_enumerate hw)
      | absent q1 q2 q3 =>
        obtain rfl := h3 _ q1
        obtain ⟨rfl, rfl⟩ := IsNet.unique hn q2
        rw [hd] at q3; cases q3
      | malformed q1 q2 => exact absurd hn (q2 _ _)
    | none =>
      have e1 := updateDescendants_absent (logged cb) h1 hn hd ((hok _ f p hM hn hd).imp id (.imp id fun ⟨b, hb⟩ hall => by
        obtain ⟨q, v, a1, a2⟩ := hall b
        rw [hb q a1] at a2; cases a2)) []
      refine ⟨t, [], e1, h1, ⟨_, .absent hM hn hd⟩, fun M' hM' => ?_⟩
      cases hM' with
      | update q1 q2 q3 q4 q5 =>
        obtain rfl := h3 _ q1
        obtain ⟨rfl, rfl⟩ := IsNet.unique hn q2
        exact absurd hd q3
      | absent q1 q2 q3 => exact h3 _ q1
      | malformed q1 q2 => exact h3 _ q1
  · have hn : ∀ f p, ¬ IsNet n f p := fun f p q => hn ⟨f, p, q⟩
    refine ⟨t, [], updateDescendants_bad _ hn _, h1, ⟨_, .malformed hM hn⟩, fun M' hM' => ?_⟩
    cases hM' with
    | update q1 q2 => exact absurd q2 (hn _ _)
    | absent q1 q2 q3 => exact h3 _ q1
    | malformed q1 q2 => exact h3 _ q1

end Verif.IP
