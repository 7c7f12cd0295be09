import Verif.RBHeap.Typed
import Verif.DLHeap.Confine
import Verif.DomHeap.History

/-!
# Every object of a domaintree belongs to one path of labels

Whatever in-place insertions do to shared trees, the nodes of label trees, the `dltree.Tree` objects and the `Node` objects keep the path of
labels they were made for.  The path is not stored in memory; `Cls` is the record of it.
-/

namespace Verif.DomHeap
open Verif Verif.Heap Verif.Heap.Prog Verif.RB Verif.RBHeap Verif.DLHeap Verif.Domain Verif.DomainText Verif.DomTree

/-- The kinds of cells. -/
inductive Kd where
  | rb | tree | node

/-- The record: kind and path of each address. -/
abbrev Cls := Addr → Option (Kd × List Bytes)

/-- nil or an object of this kind and path. -/
def InC (g : Cls) (k : Kd) (p : List Bytes) (r : Ptr) : Prop := InA (fun a => g a = some (k, p)) r

/-- The record `g'` extends `g`. -/
def Ext (g g' : Cls) : Prop := ∀ a k, g a = some k → g' a = some k

theorem Ext.refl (g : Cls) : Ext g g := fun _ _ h => h
theorem Ext.trans {g g' g'' : Cls} (h : Ext g g') (h' : Ext g' g'') : Ext g g'' := fun a k e => h' a k (h a k e)
theorem InC.mono {g g' : Cls} (e : Ext g g') {k : Kd} {p : List Bytes} {r : Ptr} (h : InC g k p r) : InC g' k p r := InA.mono (fun a => e a _) h

variable {V : Type} {L : List Bytes → V → Prop}

/-- What a cell of a kind and path may hold; `L` are the pairs inserted so far. -/
def DOk (L : List Bytes → V → Prop) (g : Cls) : Kd × List Bytes → Cell (DD V) → Prop
  | (.rb, p), c => ∃ d, c.d = .rb d ∧ InC g .rb p c.c0 ∧ InC g .rb p c.c1 ∧ InC g .node (p ++ [d.key]) d.value
  | (.tree, p), c => c.d = .tree ∧ InC g .rb p c.c0
  | (.node, p), c => ∃ v, c.d = .node v ∧ InC g .tree p c.c0 ∧ ∀ x, v = some x → L p x

theorem DOk.mono {g g' : Cls} (e : Ext g g') {k : Kd × List Bytes} {c : Cell (DD V)} (h : DOk L g k c) : DOk L g' k c := by
  obtain ⟨k, p⟩ := k
  cases k with
  | rb => obtain ⟨d, h1, h2, h3, h4⟩ := h; exact ⟨d, h1, h2.mono e, h3.mono e, h4.mono e⟩
  | tree => exact ⟨h.1, h.2.mono e⟩
  | node => obtain ⟨v, h1, h2, h3⟩ := h; exact ⟨v, h1, h2.mono e, h3⟩

/-- Every cell holds what its kind and path allow. -/
def Typed (L : List Bytes → V → Prop) (g : Cls) (h : Heap (DD V)) : Prop :=
  (∀ a c, h.mem a = some c → ∃ k, g a = some k ∧ DOk L g k c) ∧ ∀ a k, g a = some k → a < h.next

theorem Typed.more {L' : List Bytes → V → Prop} {g : Cls} {h : Heap (DD V)} (ht : Typed L g h) (hl : ∀ p v, L p v → L' p v) : Typed L' g h := by
  refine ⟨fun a c hc => ?_, ht.2⟩
  obtain ⟨⟨k, p⟩, h1, h2⟩ := ht.1 a c hc
  refine ⟨_, h1, ?_⟩
  cases k with
  | rb => exact h2
  | tree => exact h2
  | node => obtain ⟨v, h3, h4, h5⟩ := h2; exact ⟨v, h3, h4, fun x e => hl _ _ (h5 x e)⟩

theorem Typed.at {g : Cls} {h : Heap (DD V)} (ht : Typed L g h) {a : Addr} {k : Kd × List Bytes} (ha : g a = some k) {c : Cell (DD V)} (hc : h.mem a = some c) : DOk L g k c := by
  obtain ⟨k', h1, h2⟩ := ht.1 a c hc
  rw [ha] at h1; cases h1; exact h2

/-- Started in a memory that fits an extension of the record, the program leaves one that fits a further extension, and its result, if it returns,
satisfies `P`. -/
def Tri (L : List Bytes → V → Prop) (g : Cls) {α : Type} (P : Cls → α → Prop) (p : Prog (DD V) α) : Prop :=
  ∀ g1 h r h', Ext g g1 → Typed L g1 h → p.fin h = (r, h') → ∃ g', Ext g1 g' ∧ Typed L g' h' ∧ ∀ x, r = some x → P g' x

variable {α β : Type} {g : Cls}

theorem tri_ret {P : Cls → α → Prop} {x : α} (h : ∀ g', Ext g g' → P g' x) : Tri L g P (.ret x) := by
  intro g1 h0 y h' e ht hr
  cases hr
  exact ⟨g1, Ext.refl _, ht, fun y hy => by cases hy; exact h g1 e⟩

theorem tri_pure {P : Cls → α → Prop} {x : α} (h : ∀ g', Ext g g' → P g' x) : Tri L g P (pure x) := tri_ret h

theorem tri_stop {P : Cls → α → Prop} {e : Heap.Err} : Tri L g P (.stop e) := by
  intro g1 h0 y h' _ ht hr
  cases hr
  exact ⟨g1, Ext.refl _, ht, fun y hy => by cases hy⟩

theorem tri_bind {P : Cls → α → Prop} {Q : Cls → β → Prop} {p : Prog (DD V) α} {f : α → Prog (DD V) β} (hp : Tri L g P p) (hf : ∀ g' x, Ext g g' → P g' x → Tri L g' Q (f x)) :
    Tri L g Q (p >>= f) := by
  intro g1 h y h' e ht hr
  rw [fin_bind] at hr
  obtain ⟨r, hm⟩ : ∃ r, p.fin h = r := ⟨_, rfl⟩
  obtain ⟨x, h1⟩ := r
  obtain ⟨g2, e2, t2, p2⟩ := hp g1 h x h1 e ht hm
  rw [hm] at hr
  cases x with
  | none => cases hr; exact ⟨g2, e2, t2, fun y hy => by cases hy⟩
  | some x =>
    obtain ⟨g3, e3, t3, p3⟩ := hf g2 x (e.trans e2) (p2 x rfl) g2 h1 y h' (Ext.refl _) t2 hr
    exact ⟨g3, e2.trans e3, t3, p3⟩

theorem tri_mono {P Q : Cls → α → Prop} {p : Prog (DD V) α} (hp : Tri L g P p) (h : ∀ g' x, Ext g g' → P g' x → Q g' x) : Tri L g Q p := by
  intro g1 h0 x h' e ht hr
  obtain ⟨g2, e2, t2, p2⟩ := hp g1 h0 x h' e ht hr
  exact ⟨g2, e2, t2, fun y hy => h _ _ (e.trans e2) (p2 y hy)⟩

theorem tri_ite {P : Cls → α → Prop} {b : Prop} [Decidable b] {p q : Prog (DD V) α} (hp : b → Tri L g P p) (hq : ¬ b → Tri L g P q) : Tri L g P (if b then p else q) := by
  split
  · exact hp (by assumption)
  · exact hq (by assumption)

theorem tri_read {P : Cls → α → Prop} {a : Addr} {k : Kd × List Bytes} (ha : g a = some k) {f : Cell (DD V) → Prog (DD V) α}
    (hf : ∀ g' c, Ext g g' → DOk L g' k c → Tri L g' P (f c)) : Tri L g P (.read a f) := by
  intro g1 h x h' e ht hr
  simp only [Prog.fin] at hr
  cases hm : h.mem a with
  | none => rw [hm] at hr; cases hr; exact ⟨g1, Ext.refl _, ht, fun y hy => by cases hy⟩
  | some c => rw [hm] at hr; exact hf g1 c e (ht.at (e a k ha) hm) g1 h x h' (Ext.refl _) ht hr

theorem tri_write {P : Cls → α → Prop} {a : Addr} {k : Kd × List Bytes} (ha : g a = some k) {c : Cell (DD V)} (hc : DOk L g k c) {f : Prog (DD V) α} (hf : Tri L g P f) :
    Tri L g P (.write a c f) := by
  intro g1 h x h' e ht hr
  refine hf g1 (h.put a c) x h' e ⟨fun b d hd => ?_, ht.2⟩ hr
  rw [Heap.mem_put] at hd
  split at hd
  · rename_i hb
    cases hd; subst hb
    exact ⟨k, e _ _ ha, hc.mono e⟩
  · exact ht.1 b d hd

theorem tri_alloc {P : Cls → α → Prop} {k : Kd × List Bytes} {c : Cell (DD V)} (hc : DOk L g k c) {f : Addr → Prog (DD V) α}
    (hf : ∀ g' a, Ext g g' → g' a = some k → Tri L g' P (f a)) : Tri L g P (.alloc c f) := by
  intro g1 h x h' e ht hr
  let g2 : Cls := fun a => if a = h.next then some k else g1 a
  have e2 : Ext g1 g2 := by
    intro a k' ha
    have := ht.2 a k' ha
    show (if _ then _ else _) = _
    rw [if_neg (Nat.ne_of_lt this)]; exact ha
  have hn : g2 h.next = some k := if_pos rfl
  suffices hT : Typed L g2 (h.push c) by
    obtain ⟨g3, e3, t3, p3⟩ := hf g2 h.next (e.trans e2) hn g2 (h.push c) x h' (Ext.refl _) hT hr
    exact ⟨g3, e2.trans e3, t3, p3⟩
  refine ⟨fun b d hd => ?_, fun a k' ha => ?_⟩
  · simp only [Heap.push] at hd
    split at hd
    · rename_i hb
      cases hd; subst hb
      exact ⟨k, hn, hc.mono (e.trans e2)⟩
    · obtain ⟨k', h1, h2⟩ := ht.1 b d hd
      exact ⟨k', e2 _ _ h1, h2.mono e2⟩
  · show a < h.next + 1
    have ha : (if a = h.next then some k else g1 a) = some k' := ha
    split at ha
    · omega
    · have := ht.2 a k' ha; omega

/-! ## Programs on the nodes of label trees -/

/-- The addresses of the nodes of label trees with this path. -/
def RbAt (g : Cls) (p : List Bytes) (a : Addr) : Prop := g a = some (.rb, p)

/-- The value belongs to the path extended by the key. -/
def ValOf (g : Cls) (p : List Bytes) (k : Bytes) (v : Ptr) : Prop := InC g .node (p ++ [k]) v

theorem tri_rb {q : Prog (RD Bytes Ptr) α} {p : List Bytes} {P : Cls → α → Prop}
    (h1 : ∀ g', Ext g g' → q.Stays (RbAt g' p) (CellOf (RbAt g' p) fun _ _ => True) fun _ => True)
    (h2 : ∀ g' h, Ext g g' → h.Keeps (RbAt g' p) (CellOf (RbAt g' p) (ValOf g' p)) →
      q.pwpA (RbAt g' p) (Heap.Keeps (RbAt g' p) (CellOf (RbAt g' p) (ValOf g' p))) (fun x h' => P g' x ∧ h'.Keeps (RbAt g' p) (CellOf (RbAt g' p) (ValOf g' p))) h) : Tri L g P (q.lift (dm (V := V)).kR) := by
  intro g1 h x h' e ht hr
  let g2 : Cls := fun a => if h.next ≤ a ∧ a < h'.next then some (.rb, p) else g1 a
  have old : ∀ a, a < h.next → g2 a = g1 a := fun a ha => if_neg (by omega)
  have e2 : Ext g1 g2 := fun a k ha => by rw [old a (ht.2 a k ha)]; exact ha
  have new : ∀ a, h.next ≤ a → a < h'.next → RbAt g2 p a := fun a h1 h2 => if_pos ⟨h1, h2⟩
  have hk : ∀ a c, RbAt g2 p a → h.mem a = some c → DOk L g2 (.rb, p) c := by
    intro a c ha hc
    obtain ⟨k, h3, h4⟩ := ht.1 a c hc
    have := e2 _ _ h3
    rw [show g2 a = some (.rb, p) from ha] at this
    cases this
    exact h4.mono e2
  let CE : Cell (DD V) → Prop := fun c => ∃ d, (dm (V := V)).kR.cell c = some d ∧ CellOf (RbAt g2 p) (fun _ _ => True) d
  have hce : ∀ a c, RbAt g2 p a → h.mem a = some c → CE c := fun a c ha hc => by
    obtain ⟨d, h3, h4, h5, h6⟩ := hk a c ha hc
    refine ⟨⟨d, c.c0, c.c1⟩, ?_, h4, h5, trivial⟩
    rw [show c = Cell.map (dm (V := V)).kR.inj ⟨d, c.c0, c.c1⟩ from by cases c; cases h3; rfl]
    exact Kind.cell_map _ _
  have hs := stays_fin (stays_lift (CE := CE) (fun c d hc hd => by
      obtain ⟨d', h3, h4⟩ := hc
      rw [hd] at h3; cases h3; exact h4) (fun d hd => ⟨d, Kind.cell_map _ d, hd⟩) (h1 g2 (e.trans e2))) hr hce new
  have hp := pwpA_fin (pwpA_lift (dm (V := V)).kR (G' := fun h => ((dm (V := V)).kR.view h).Keeps (RbAt g2 p) (CellOf (RbAt g2 p) (ValOf g2 p)))
    (h2 g2 ((dm (V := V)).kR.view h) (e.trans e2) (fun a c ha hc => by
      obtain ⟨d, h3, h4, h5, h6⟩ := hk a _ ha (Kind.view_mem _ |>.1 hc)
      cases h3
      exact ⟨h4, h5, h6⟩)) (fun _ h => h) hce (h1 g2 (e.trans e2))) hr new
  have hv : ((dm (V := V)).kR.view h').Keeps (RbAt g2 p) (CellOf (RbAt g2 p) (ValOf g2 p)) := by
    cases x with
    | none => exact hp.2 rfl
    | some y => exact (hp.1 y rfl).2
  refine ⟨g2, e2, ⟨fun a c hc => ?_, fun a k ha => ?_⟩, fun y hy => (hp.1 y hy).1⟩
  · by_cases hA : RbAt g2 p a
    · obtain ⟨d, h3, h4⟩ := hs.1 a c hA hc
      have h5 := Kind.map_cell _ h3
      subst h5
      have h6 := hv a d hA (Kind.view_mem _ |>.2 hc)
      exact ⟨_, hA, d.d, rfl, h6.1, h6.2.1, h6.2.2⟩
    · rw [hs.2 a hA] at hc
      obtain ⟨k, h3, h4⟩ := ht.1 a c hc
      exact ⟨k, e2 _ _ h3, h4.mono e2⟩
  · have hn := fin_next_le (q.lift (dm (V := V)).kR) h
    rw [hr] at hn
    have hn : h.next ≤ h'.next := hn
    have ha : (if h.next ≤ a ∧ a < h'.next then some (Kd.rb, p) else g1 a) = some k := ha
    split at ha
    · omega
    · have := ht.2 a k ha; omega

/-! ## Single steps -/

theorem tri_load {D : Type} {K : Kind D (DD V)} {P : Cls → α → Prop} {k : Kd × List Bytes} {n : Ptr} (hn : InA (fun a => g a = some k) n) {f : Cell D → Prog D α}
    (hf : ∀ g' d, Ext g g' → DOk L g' k (d.map K.inj) → Tri L g' P ((f d).lift K)) : Tri L g P ((load n >>= f).lift K) := by
  cases n with
  | none => exact tri_stop
  | some a =>
    show Tri L g P (Prog.lift K (.read a fun c => f c))
    unfold Prog.lift
    refine tri_read (hn a rfl) fun g' c e hc => ?_
    split
    · rename_i d hd
      rw [Kind.map_cell _ hd] at hc
      exact hf g' d e hc
    · exact tri_stop

theorem tri_upd {D : Type} {K : Kind D (DD V)} {k : Kd × List Bytes} {n : Ptr} (hn : InA (fun a => g a = some k) n) {u : Cell D → Cell D}
    (hu : ∀ g' d, Ext g g' → DOk L g' k (d.map K.inj) → DOk L g' k ((u d).map K.inj)) : Tri L g (fun _ _ => True) ((upd n u).lift K) := by
  cases n with
  | none => exact tri_stop
  | some a =>
    show Tri L g _ (Prog.lift K (.read a fun c => .write a (u c) (.ret ())))
    unfold Prog.lift
    refine tri_read (hn a rfl) fun g' c e hc => ?_
    split
    · rename_i d hd
      rw [Kind.map_cell _ hd] at hc
      exact tri_write (e _ _ (hn a rfl)) (hu g' d e hc) (tri_ret fun _ _ => trivial)
    · exact tri_stop

theorem T_nodeP {p : List Bytes} {n : Ptr} (hn : InC g .node p n) : Tri L g (fun g' x => InC g' .tree p x.2 ∧ ∀ v, x.1 = some v → L p v) (nodeP n : Prog (DD V) _) := by
  refine tri_load hn fun g' d _ hc => tri_ret fun g'' e => ?_
  obtain ⟨v, h1, h2, h3⟩ := hc
  cases h1
  exact ⟨h2.mono e, h3⟩

theorem T_newNodeP {p : List Bytes} {br : Ptr} (hb : InC g .tree p br) {val : Option V} (hv : ∀ x, val = some x → L p x) : Tri L g (fun g' r => InC g' .node p r) (newNodeP br val) := by
  refine tri_alloc (k := (.node, p)) ⟨val, rfl, hb, hv⟩ fun g' a _ ha => tri_ret fun g'' e => InA.some (e _ _ ha)

theorem T_setBranchesP {p : List Bytes} {n t : Ptr} (hn : InC g .node p n) (ht : InC g .tree p t) : Tri L g (fun _ _ => True) (setBranchesP n t : Prog (DD V) _) :=
  tri_upd hn fun _ _ e hc => hc.elim fun v h => ⟨v, h.1, ht.mono e, h.2.2⟩

theorem T_setValP {p : List Bytes} {n : Ptr} (hn : InC g .node p n) {v : V} (hv : L p v) : Tri L g (fun _ _ => True) (setValP n v) :=
  tri_upd hn fun _ _ _ hc => hc.elim fun w h => ⟨some v, rfl, h.2.1, fun x hx => by cases hx; exact hv⟩

theorem T_assertP {p : List Bytes} {item : Ptr} (hi : InC g .node p item) : Tri L g (fun g' r => InC g' .node p r) (assertP item : Prog (DD V) _) := by
  cases item with
  | none => exact tri_stop
  | some a => exact tri_ret fun _ e => hi.mono e

theorem T_rootP {p : List Bytes} {t : Ptr} (ht : InC g .tree p t) : Tri L g (fun g' r => InC g' .rb p r) (rootP dm t : Prog (DD V) _) :=
  tri_load ht fun _ _ _ hc => tri_ret fun _ e => hc.2.mono e

theorem T_rootOrNilP {p : List Bytes} {t : Ptr} (ht : InC g .tree p t) : Tri L g (fun g' r => InC g' .rb p r) (rootOrNilP dm t : Prog (DD V) _) :=
  tri_ite (fun _ => T_rootP ht) fun _ => tri_pure fun _ _ => InA.none

theorem T_newTreeP {p : List Bytes} {r : Ptr} (hr : InC g .rb p r) : Tri L g (fun g' t => InC g' .tree p t) (newTreeP dm r : Prog (DD V) _) := by
  refine tri_alloc (k := (.tree, p)) ⟨rfl, hr⟩ fun g' a _ ha => tri_ret fun g'' e => InA.some (e _ _ ha)

theorem T_setRootP {p : List Bytes} {t r : Ptr} (ht : InC g .tree p t) (hr : InC g .rb p r) : Tri L g (fun _ _ => True) (setRootP dm t r : Prog (DD V) _) :=
  tri_upd ht fun _ _ e hc => ⟨hc.1, hr.mono e⟩

/-! ## Label trees -/

theorem valOf_default (g : Cls) (p : List Bytes) (k : Bytes) : ValOf g p k default := InA.none

theorem valOf_eq (g : Cls) (p : List Bytes) : ∀ k k' v, DL.cmpLabel k k' = 0 → ValOf g p k' v → ValOf g p k v := fun k k' v h hv => by
  rw [DL.cmpLabel_eq_zero.1 h]; exact hv

theorem T_RawInsertP (f : Nat) {p : List Bytes} {t : Ptr} (ht : InC g .tree p t) (key : Bytes) {value : Ptr} (hv : InC g .node (p ++ [key]) value) :
    Tri L g (fun g' r => InC g' .tree p r) (RawInsertP dm f t key value : Prog (DD V) _) :=
  tri_bind (T_rootOrNilP ht) fun _ _ e hn => tri_bind (tri_rb (P := fun g' r => InC g' .rb p r)
    (fun _ e' => stays_mono (S_insertP (fun _ => trivial) DL.cmpLabel f (hn.mono e') key fun _ => trivial) fun _ _ => trivial)
    (fun g' _ e' hh => insertP_typed (valOf_default g' p) (valOf_eq g' p) (hv.mono (e.trans e')) f (hn.mono e') hh)) fun _ _ _ hx => T_newTreeP hx

theorem T_RawInplaceInsertP (f : Nat) {p : List Bytes} {t : Ptr} (ht : InC g .tree p t) (key : Bytes) {value : Ptr} (hv : InC g .node (p ++ [key]) value) :
    Tri L g (fun _ _ => True) (RawInplaceInsertP dm f t key value : Prog (DD V) _) :=
  tri_bind (T_rootP ht) fun _ _ e hn => tri_bind (tri_rb (P := fun g' r => InC g' .rb p r)
    (fun _ e' => stays_mono (S_inplaceInsertP (fun _ => trivial) DL.cmpLabel f (hn.mono e') key fun _ => trivial) fun _ _ => trivial)
    (fun g' _ e' hh => inplaceInsertP_typed (valOf_default g' p) (valOf_eq g' p) (hv.mono (e.trans e')) f (hn.mono e') hh)) fun _ _ e' hx => T_setRootP (ht.mono (e.trans e')) hx

theorem T_RawDeleteP (f : Nat) {p : List Bytes} {t : Ptr} (ht : InC g .tree p t) (key : Bytes) : Tri L g (fun g' r => InC g' .tree p r.1) (RawDeleteP dm f t key : Prog (DD V) _) :=
  tri_ite (fun _ => tri_pure fun _ _ => InA.none) fun _ => tri_bind (T_rootP ht) fun _ _ _ hn => tri_bind (tri_rb (P := fun g' (r : Ptr × Bool) => InC g' .rb p r.1)
    (fun _ e' => stays_mono (S_delP (fun _ => trivial) (fun _ _ _ _ => trivial) DL.cmpLabel f (hn.mono e') key) fun _ _ => trivial)
    (fun g' _ e' hh => delP_typed (valOf_default g' p) f (hn.mono e') key hh)) fun _ _ _ hx => tri_bind (T_newTreeP hx) fun _ _ _ ht => tri_pure fun _ e => ht.mono e

theorem T_RawGetP (f : Nat) {p : List Bytes} {t : Ptr} (ht : InC g .tree p t) (key : Bytes) :
    Tri L g (fun g' r => ∀ v, r = some v → InC g' .node (p ++ [key]) v) (RawGetP dm f t key : Prog (DD V) _) :=
  tri_ite (fun _ => tri_pure fun _ _ _ h => by cases h) fun _ => tri_bind (T_rootP ht) fun _ _ _ hn => tri_rb
    (fun _ e' => stays_mono (S_getP DL.cmpLabel f (hn.mono e') key) fun _ _ => trivial)
    (fun g' _ e' hh => pwpA_mono (stays_pwpA (S_getP DL.cmpLabel f (hn.mono e') key) hh) fun x h' hx => ⟨fun v hv => by
      obtain ⟨k, h1, h2⟩ := hx.1 v hv
      exact DL.cmpLabel_eq_zero.1 h1 ▸ h2, hx.2⟩)

theorem T_RawEnumerateP (f : Nat) {p : List Bytes} {t : Ptr} (ht : InC g .tree p t) :
    Tri L g (fun g' r => ∀ x ∈ r, InC g' .node (p ++ [x.1]) x.2) (RawEnumerateP dm f t : Prog (DD V) _) :=
  tri_ite (fun _ => tri_pure fun _ _ _ h => by cases h) fun _ => tri_bind (T_rootP ht) fun _ _ _ hn => tri_rb
    (fun _ e' => stays_mono (S_enumerateP f (hn.mono e')) fun _ _ => trivial)
    (fun g' _ e' hh => stays_pwpA (S_enumerateP f (hn.mono e')) hh)

theorem T_IsEmptyP {p : List Bytes} {t : Ptr} (ht : InC g .tree p t) : Tri L g (fun _ _ => True) (IsEmptyP dm t : Prog (DD V) _) :=
  tri_ite (fun _ => tri_pure fun _ _ => trivial) fun _ => tri_bind (T_rootP ht) fun _ _ _ _ => tri_pure fun _ _ => trivial

/-! ## Nodes -/

theorem T_copyP {p : List Bytes} {n : Ptr} (hn : InC g .node p n) : Tri L g (fun g' r => InC g' .node p r) (copyP n : Prog (DD V) _) :=
  tri_ite (fun _ => T_newNodeP InA.none fun _ h => by cases h) fun _ => tri_bind (T_nodeP hn) fun _ _ _ hx => T_newNodeP hx.1 hx.2

theorem T_setBranchP (f : Nat) {p : List Bytes} {n : Ptr} (hn : InC g .node p n) (label : Bytes) {next : Ptr} (hx : InC g .node (p ++ [label]) next) :
    Tri L g (fun _ _ => True) (setBranchP f n label next : Prog (DD V) _) :=
  tri_bind (T_nodeP hn) fun _ _ e hb => tri_bind (T_RawInsertP f hb.1 label (hx.mono e)) fun _ _ e' ht => T_setBranchesP (hn.mono (e.trans e')) ht

theorem T_delBranchP (f : Nat) {p : List Bytes} {n : Ptr} (hn : InC g .node p n) (label : Bytes) : Tri L g (fun _ _ => True) (delBranchP f n label : Prog (DD V) _) :=
  tri_bind (T_nodeP hn) fun _ _ e hb => tri_bind (T_RawDeleteP f hb.1 label) fun _ _ e' ht => T_setBranchesP (hn.mono (e.trans e')) ht

/-- Walking the labels of a name. -/
theorem T_foldP {σ E : Type} {S : Cls → List Bytes → σ → Prop} (hS : ∀ g g' p s, Ext g g' → S g p s → S g' p s) {f : σ → Bytes → Prog (DD V) (σ × Option E)}
    (hf : ∀ g p s l, S g p s → Tri L g (fun g' x => (x.2 = none → S g' (p ++ [l]) x.1) ∧ (x.2 ≠ none → S g' p x.1)) (f s l)) (ls : List Bytes) :
    ∀ {g : Cls} {p : List Bytes} {s : σ}, S g p s → Tri L g (fun g' x => ∃ q, q <+: p ++ ls ∧ S g' q x.1 ∧ (x.2 = none → q = p ++ ls)) (foldP f s ls) := by
  induction ls with
  | nil => intro g p s hs; exact tri_pure fun g' e => ⟨p, by simp, hS _ _ _ _ e hs, fun _ => by simp⟩
  | cons l ls ih =>
    intro g p s hs
    unfold foldP
    refine tri_bind (hf g p s l hs) fun g1 x e hx => ?_
    obtain ⟨s1, r⟩ := x
    cases r with
    | some y => exact tri_pure fun g' e => ⟨p, List.prefix_append _ _, hS _ _ _ _ e (hx.2 (by simp)), fun h => by cases h⟩
    | none =>
      refine tri_mono (ih (hx.1 rfl)) fun g' x _ hx => ?_
      simpa only [List.append_assoc, List.singleton_append] using hx

theorem T_nextP {p : List Bytes} {item : Option Ptr} (hi : ∀ v, item = some v → InC g .node p v) : Tri L g (fun g' r => InC g' .node p r) (nextP item : Prog (DD V) _) := by
  cases item with
  | none => exact T_newNodeP InA.none fun _ h => by cases h
  | some v => exact tri_bind (T_assertP (hi v rfl)) fun _ _ _ hx => T_copyP hx

theorem T_insertStepP (f : Nat) (g : Cls) (p : List Bytes) (n : Ptr) (label : Bytes) (hn : InC g .node p n) :
    Tri L g (fun g' x => (x.2 = none → InC g' .node (p ++ [label]) x.1) ∧ (x.2 ≠ none → InC g' .node p x.1)) (insertStepP f n label : Prog (DD V) _) :=
  tri_bind (T_nodeP hn) fun _ _ e1 hb => tri_bind (T_RawGetP f hb.1 label) fun _ _ e2 hi => tri_bind (T_nextP hi) fun _ _ e3 hx =>
    tri_bind (T_setBranchP f (hn.mono (e1.trans (e2.trans e3))) label hx) fun _ _ e _ => tri_pure fun _ e' => ⟨fun _ => hx.mono (e.trans e'), fun h => absurd rfl h⟩

theorem noEmpty (x : Option Empty) : x = none := by cases x with
  | none => rfl
  | some y => cases y

theorem T_InsertP (f : Nat) {n : Ptr} (hn : InC g .node [] n) {d : Name} {ls : List Bytes} (hd : Holds d ls) {v : V} (hv : L ls v) :
    Tri L g (fun g' r => InC g' .node [] r) (InsertP f n d v) := by
  unfold InsertP
  simp only [getLabelsP hd]
  refine tri_bind (T_copyP hn) fun _ _ _ hr => tri_bind (T_foldP (S := fun g p s => InC g .node p s) (fun _ _ _ _ e h => h.mono e) (fun g p s l h => T_insertStepP f g p s l h) ls hr)
    fun _ _ e hx => ?_
  obtain ⟨q, _, h1, h2⟩ := hx
  have := h2 (noEmpty _)
  subst this
  exact tri_bind (T_setValP h1 hv) fun _ _ e' _ => tri_pure fun _ e'' => hr.mono (e.trans (e'.trans e''))

theorem T_inplaceStepP (f : Nat) (g : Cls) (p : List Bytes) (n : Ptr) (label : Bytes) (hn : InC g .node p n) :
    Tri L g (fun g' x => (x.2 = none → InC g' .node (p ++ [label]) x.1) ∧ (x.2 ≠ none → InC g' .node p x.1)) (inplaceStepP f n label : Prog (DD V) _) := by
  refine tri_bind (T_nodeP hn) fun _ x e1 hb => tri_bind (T_RawGetP f hb.1 label) fun _ item e2 hi => ?_
  cases item with
  | some v => exact tri_bind (T_assertP (hi v rfl)) fun _ _ _ hx => tri_pure fun _ e => ⟨fun _ => hx.mono e, fun h => absurd rfl h⟩
  | none =>
    exact tri_bind (T_newTreeP (p := p ++ [label]) InA.none) fun _ _ e3 ht => tri_bind (T_newNodeP ht fun _ h => by cases h) fun _ _ e4 hx =>
      tri_bind (T_nodeP (hn.mono (e1.trans (e2.trans (e3.trans e4))))) fun _ _ e5 hb =>
      tri_bind (T_RawInplaceInsertP f hb.1 label (hx.mono e5)) fun _ _ e6 _ => tri_pure fun _ e => ⟨fun _ => hx.mono (e5.trans (e6.trans e)), fun h => absurd rfl h⟩

theorem T_ensureBranchesP {p : List Bytes} {n : Ptr} (hn : InC g .node p n) : Tri L g (fun _ _ => True) (ensureBranchesP n : Prog (DD V) _) :=
  tri_bind (T_nodeP hn) fun _ _ e _ => tri_ite (fun _ => tri_bind (T_newTreeP (p := p) InA.none) fun _ _ e' ht => T_setBranchesP (hn.mono (e.trans e')) ht) fun _ => tri_pure fun _ _ => trivial

theorem T_InplaceInsertP (f : Nat) {n : Ptr} (hn : InC g .node [] n) {d : Name} {ls : List Bytes} (hd : Holds d ls) {v : V} (hv : L ls v) :
    Tri L g (fun _ _ => True) (InplaceInsertP f n d v) := by
  unfold InplaceInsertP
  simp only [getLabelsP hd]
  refine tri_bind (T_ensureBranchesP hn) fun _ _ e _ => tri_bind (T_foldP (S := fun g p s => InC g .node p s) (fun _ _ _ _ e h => h.mono e)
    (fun g p s l h => T_inplaceStepP f g p s l h) ls (hn.mono e)) fun _ _ e hx => ?_
  obtain ⟨q, _, h1, h2⟩ := hx
  have := h2 (noEmpty _)
  subst this
  exact T_setValP h1 hv

/-- The state of `Get`: a node of the path walked so far and a value inserted under a prefix of it. -/
def GetAt (L : List Bytes → V → Prop) (g : Cls) (p : List Bytes) (s : Ptr × Option V) : Prop := InC g .node p s.1 ∧ ∀ v, s.2 = some v → ∃ q, q ≠ [] ∧ q <+: p ∧ L q v

theorem T_getStepP (f : Nat) (g : Cls) (p : List Bytes) (s : Ptr × Option V) (label : Bytes) (hs : GetAt L g p s) :
    Tri L g (fun g' x => (x.2 = none → GetAt L g' (p ++ [label]) x.1) ∧ (x.2 ≠ none → GetAt L g' p x.1)) (getStepP f s label : Prog (DD V) _) := by
  refine tri_bind (T_nodeP hs.1) fun _ x e1 hb => tri_bind (T_RawGetP f hb.1 label) fun _ item e2 hi => ?_
  cases item with
  | none => exact tri_pure fun _ e => ⟨fun h => (by cases h), fun _ => ⟨hs.1.mono (e1.trans (e2.trans e)), hs.2⟩⟩
  | some v =>
    refine tri_bind (T_assertP (hi v rfl)) fun _ n e3 hn => tri_bind (T_nodeP hn) fun _ y e4 hy => ?_
    split
    · rename_i v hv
      exact tri_pure fun _ e => ⟨fun _ => ⟨hn.mono (e4.trans e), fun w hw => ⟨_, by simp, List.prefix_rfl, by cases hw; exact hy.2 v hv⟩⟩, fun h => absurd rfl h⟩
    · exact tri_pure fun _ e => ⟨fun _ => ⟨hn.mono (e4.trans e), fun w hw => (hs.2 w hw).elim fun q hq => ⟨q, hq.1, hq.2.1.trans (List.prefix_append _ _), hq.2.2⟩⟩, fun h => absurd rfl h⟩

theorem T_GetP (f : Nat) {n : Ptr} (hn : InC g .node [] n) {d : Name} {ls : List Bytes} (hd : Holds d ls) :
    Tri L g (fun _ r => ∀ v, r = some v → ∃ q, q ≠ [] ∧ q <+: ls ∧ L q v) (DomHeap.GetP f n d) := by
  unfold DomHeap.GetP
  simp only [getLabelsP hd]
  refine tri_ite (fun _ => tri_pure fun _ _ _ h => by cases h) fun _ => tri_bind (T_foldP (S := GetAt L) (fun _ _ _ _ e h => ⟨h.1.mono e, h.2⟩) (fun g p s l h => T_getStepP f g p s l h) ls
    (⟨hn, fun _ h => by cases h⟩ : GetAt L g [] (n, none))) fun _ x _ hx => tri_pure fun _ _ v hv => ?_
  obtain ⟨q, h1, h2, _⟩ := hx
  obtain ⟨r, h3, h4, h5⟩ := h2.2 v hv
  exact ⟨r, h3, h4.trans h1, h5⟩

/-! ## Deletion -/

/-- The nodes of a branch belong to the prefixes of its path; labels and nodes are listed from the end. -/
def Anc (g : Cls) : List Bytes → List Ptr → Prop
  | [], [] => True
  | _ :: ls, n :: ns => InC g .node ls.reverse n ∧ Anc g ls ns
  | _, _ => False

theorem Anc.mono {g g' : Cls} (e : Ext g g') : ∀ {ls : List Bytes} {ns : List Ptr}, Anc g ls ns → Anc g' ls ns
  | [], [], _ => trivial
  | _ :: _, _ :: _, h => ⟨h.1.mono e, h.2.mono e⟩
  | [], _ :: _, h => h.elim
  | _ :: _, [], h => h.elim

/-- The state of `getBranch`. -/
def BrAt (g : Cls) (p : List Bytes) (s : List Bytes × Ptr × List Ptr) : Prop := s.1.reverse = p ∧ InC g .node p s.2.1 ∧ Anc g s.1 s.2.2

theorem T_branchStepP (f : Nat) (g : Cls) (p : List Bytes) (s : List Bytes × Ptr × List Ptr) (label : Bytes) (hs : BrAt g p s) :
    Tri L g (fun g' x => (x.2 = none → BrAt g' (p ++ [label]) x.1) ∧ (x.2 ≠ none → BrAt g' p x.1)) (branchStepP f s label : Prog (DD V) _) := by
  refine tri_bind (T_nodeP hs.2.1) fun _ x e1 hb => tri_bind (T_RawGetP f hb.1 label) fun _ item e2 hi => ?_
  have hm : ∀ {g'}, Ext g g' → BrAt g' p s := fun e => ⟨hs.1, hs.2.1.mono e, hs.2.2.mono e⟩
  cases item with
  | none => exact tri_pure fun _ e => ⟨fun h => (by cases h), fun _ => hm (e1.trans (e2.trans e))⟩
  | some v =>
    refine tri_bind (T_assertP (hi v rfl)) fun _ n e3 hn => tri_ite (fun _ => tri_stop) fun _ => tri_pure fun _ e => ⟨fun _ => ?_, fun h => absurd rfl h⟩
    have h := hm (e1.trans (e2.trans (e3.trans e)))
    exact ⟨by simp [hs.1], hn.mono e, hs.1 ▸ h.2.1, h.2.2⟩

theorem T_getBranchP (f : Nat) {n : Ptr} (hn : InC g .node [] n) {d : Name} {ls : List Bytes} (hd : Holds d ls) :
    Tri L g (fun g' r => ∀ b, r = some b → BrAt g' b.1.reverse b) (getBranchP f n d : Prog (DD V) _) := by
  unfold getBranchP
  simp only [getLabelsP hd]
  refine tri_bind (T_foldP (S := BrAt) (fun _ _ _ _ e h => ⟨h.1, h.2.1.mono e, h.2.2.mono e⟩) (fun g p s l h => T_branchStepP f g p s l h) ls
    (⟨rfl, hn, trivial⟩ : BrAt g [] ([], n, []))) fun _ x _ hx => ?_
  split
  · exact tri_pure fun _ _ b hb => by cases hb
  · refine tri_pure fun _ e b hb => ?_
    cases hb
    obtain ⟨q, _, h, _⟩ := hx
    have := h.1; subst this
    exact ⟨rfl, h.2.1.mono e, h.2.2.mono e⟩

theorem T_emptyP {p : List Bytes} {n : Ptr} (hn : InC g .node p n) : Tri L g (fun _ _ => True) (emptyP n : Prog (DD V) _) :=
  tri_bind (T_nodeP hn) fun _ _ _ hb => tri_ite (fun _ => T_IsEmptyP hb.1) fun _ => tri_pure fun _ _ => trivial

theorem T_relinkP (f : Nat) {q : List Bytes} {n p : Ptr} (label : Bytes) (hn : InC g .node (q ++ [label]) n) (hp : InC g .node q p) :
    Tri L g (fun _ _ => True) (relinkP f n label p : Prog (DD V) _) :=
  tri_bind (T_emptyP hn) fun _ _ e _ => tri_ite (fun _ => T_delBranchP f (hp.mono e) label) fun _ => T_setBranchP f (hp.mono e) label (hn.mono e)

theorem T_copyBranchP (f : Nat) (ls : List Bytes) : ∀ {g : Cls} {n : Ptr} {ps : List Ptr}, InC g .node ls.reverse n → Anc g ls ps →
    Tri L g (fun g' r => InC g' .node [] r) (copyBranchP f n ls ps : Prog (DD V) _) := by
  induction ls with
  | nil => intro g n ps hn hp; cases ps <;> exact tri_pure fun _ e => hn.mono e
  | cons l ls ih =>
    intro g n ps hn hp
    cases ps with
    | nil => exact hp.elim
    | cons p ps =>
      rw [List.reverse_cons] at hn
      exact tri_bind (T_copyP hp.1) fun _ p' e hp' => tri_bind (T_relinkP f l (hn.mono e) hp') fun _ _ e' _ => ih (hp'.mono e') (hp.2.mono (e.trans e'))

theorem T_noneBelowP {p q : List Bytes} {ni n : Ptr} (h1 : InC g .node p ni) (h2 : InC g .node q n) : Tri L g (fun _ _ => True) (noneBelowP ni n : Prog (DD V) _) :=
  tri_bind (T_nodeP h1) fun _ _ e _ => tri_ite (fun _ => tri_bind (T_nodeP (h2.mono e)) fun _ _ _ hb => T_IsEmptyP hb.1) fun _ => tri_pure fun _ _ => trivial

theorem T_dropBranchP (f : Nat) (ls : List Bytes) {ps : List Ptr} (hp : Anc g ls ps) : Tri L g (fun g' r => InC g' .node [] r) (dropBranchP f ls ps : Prog (DD V) _) := by
  cases ls with
  | nil => cases ps <;> exact T_newNodeP InA.none fun _ h => by cases h
  | cons l ls =>
    cases ps with
    | nil => exact hp.elim
    | cons p ps => exact tri_bind (T_copyP hp.1) fun _ c e hc => tri_bind (T_delBranchP f hc l) fun _ _ e' _ => T_copyBranchP f ls (hc.mono e') (hp.2.mono (e.trans e'))

theorem T_DeleteSubdomainsP (f : Nat) {n : Ptr} (hn : InC g .node [] n) {d : Name} {ls : List Bytes} (hd : Holds d ls) :
    Tri L g (fun g' r => InC g' .node [] r.1) (DeleteSubdomainsP f n d : Prog (DD V) _) := by
  refine tri_ite (fun _ => tri_pure fun _ _ => InA.none) fun _ => tri_bind (T_getBranchP f hn hd) fun _ b e hb => ?_
  match b, hb with
  | none, _ => exact tri_pure fun _ e' => hn.mono (e.trans e')
  | some (labels, ni, nodes), hb =>
    have h := hb _ rfl
    exact tri_bind (T_noneBelowP h.2.1 (hn.mono e)) fun _ _ e1 _ => tri_ite (fun _ => tri_pure fun _ e' => hn.mono (e.trans (e1.trans e'))) fun _ =>
      tri_bind (T_dropBranchP f labels (h.2.2.mono e1)) fun _ _ _ hr => tri_pure fun _ e => hr.mono e

theorem T_clearP (f : Nat) {q : List Bytes} {br : Ptr} (label : Bytes) (hb : InC g .tree (q ++ [label]) br) {c : Ptr} (hc : InC g .node q c) :
    Tri L g (fun _ _ => True) (clearP f br label c : Prog (DD V) _) :=
  tri_bind (T_IsEmptyP hb) fun _ _ e _ => tri_ite (fun _ => T_delBranchP f (hc.mono e) label) fun _ =>
    tri_bind (T_newNodeP (hb.mono e) fun _ h => by cases h) fun _ _ e' hq => T_setBranchP f (hc.mono (e.trans e')) label hq

theorem T_clearBranchP (f : Nat) (ls : List Bytes) {br : Ptr} (hb : InC g .tree ls.reverse br) {ps : List Ptr} (hp : Anc g ls ps) :
    Tri L g (fun g' r => InC g' .node [] r) (clearBranchP f br ls ps : Prog (DD V) _) := by
  cases ls with
  | nil =>
    have last : Tri L g (fun g' r => InC g' .node [] r) (do
        let e ← IsEmptyP dm br
        if e then newNodeP none none else newNodeP br none : Prog (DD V) Ptr) :=
      tri_bind (T_IsEmptyP hb) fun _ _ e _ => tri_ite (fun _ => T_newNodeP InA.none fun _ h => by cases h) fun _ => T_newNodeP (hb.mono e) fun _ h => by cases h
    cases ps <;> exact last
  | cons l ls =>
    cases ps with
    | nil => exact hp.elim
    | cons p ps =>
      rw [List.reverse_cons] at hb
      exact tri_bind (T_copyP hp.1) fun _ c e hc => tri_bind (T_clearP f l (hb.mono e) hc) fun _ _ e' _ => T_copyBranchP f ls (hc.mono e') (hp.2.mono (e.trans e'))

theorem T_DeleteP (f : Nat) {n : Ptr} (hn : InC g .node [] n) {d : Name} {ls : List Bytes} (hd : Holds d ls) :
    Tri L g (fun g' r => InC g' .node [] r.1) (DomHeap.DeleteP f n d : Prog (DD V) _) := by
  refine tri_ite (fun _ => tri_pure fun _ _ => InA.none) fun _ => tri_bind (T_getBranchP f hn hd) fun _ b e hb => ?_
  match b, hb with
  | none, _ => exact tri_pure fun _ e' => hn.mono (e.trans e')
  | some (labels, ni, nodes), hb =>
    have h := hb _ rfl
    exact tri_bind (T_nodeP h.2.1) fun _ x e1 hx => tri_ite (fun _ => tri_pure fun _ e' => hn.mono (e.trans (e1.trans e'))) fun _ =>
      tri_bind (T_clearBranchP f labels hx.1 (h.2.2.mono e1)) fun _ _ _ hr => tri_pure fun _ e => hr.mono e

/-! ## Enumerate -/

/-- A label as `Enumerate` prints it. -/
def humanOf (l : Bytes) : Bytes := (MakeHumanReadableLabel l).getD []

/-- The key `Enumerate` builds on its way down a path. -/
def pathText (p : List Bytes) : Bytes := p.foldl (fun s l => subKey (humanOf l) s) []

theorem pathText_snoc (p : List Bytes) (l : Bytes) : pathText (p ++ [l]) = subKey (humanOf l) (pathText p) := by simp [pathText]

theorem pathText_keyOf : ∀ {n : Nat} {p : List Bytes}, p.length = n → Short p → pathText p = keyOf p := by
  intro n
  induction n with
  | zero =>
    intro p hl _
    cases p with
    | nil => rfl
    | cons a p => simp at hl
  | succ n ih =>
    intro p hl hs
    rcases List.eq_nil_or_concat p with rfl | ⟨q, l, rfl⟩
    · simp at hl
    · rw [List.concat_eq_append] at hl hs ⊢
      have hq : Short q := fun x hx => hs x (by simp [hx])
      have hl' := hs l (by simp)
      rw [pathText_snoc, ih (by simpa using hl) hq, ← subKey_keyOf q l hq, humanOf, MakeHumanReadableLabel, human_short l [] 0 (by simp) (by omega)]
      rfl

theorem humanL_from {l l' : List (Bytes × Ptr)} (h : humanL l = some l') : ∀ x ∈ l', ∃ k, (k, x.2) ∈ l ∧ x.1 = humanOf k := by
  induction l generalizing l' with
  | nil => cases h; intro x hx; cases hx
  | cons y l ih =>
    obtain ⟨k, v⟩ := y
    simp only [humanL] at h
    split at h
    · rename_i k' m h1 h2
      cases h
      intro x hx
      rcases List.mem_cons.1 hx with rfl | hx
      · exact ⟨k, by simp, by simp [humanOf, h1]⟩
      · obtain ⟨j, h3, h4⟩ := ih h2 x hx
        exact ⟨j, by simp [h3], h4⟩
    · cases h

theorem T_EnumerateP (f : Nat) {p : List Bytes} {t : Ptr} (ht : InC g .tree p t) :
    Tri L g (fun g' r => ∀ x ∈ r, ∃ k, x.1 = humanOf k ∧ InC g' .node (p ++ [k]) x.2) (EnumerateP dm f t : Prog (DD V) _) := by
  refine tri_bind (T_RawEnumerateP f ht) fun _ l _ hl => ?_
  split
  · rename_i l' h'
    refine tri_pure fun _ e x hx => ?_
    obtain ⟨k, h1, h2⟩ := humanL_from h' x hx
    exact ⟨k, h2, (hl _ h1).mono e⟩
  · exact tri_stop

/-- Every pair is a value inserted under the path its key is the text of. -/
def Lst (L : List Bytes → V → Prop) (xs : List (Bytes × V)) : Prop := ∀ x ∈ xs, ∃ q, x.1 = pathText q ∧ L q x.2

theorem T_enumItemsP {d : Bytes → Ptr → Prog (DD V) (List (Bytes × V))} {p : List Bytes}
    (hd : ∀ g q n, InC g .node q n → Tri L g (fun _ xs => Lst L xs) (d (pathText q) n)) : ∀ {g : Cls} (l : List (Bytes × Ptr)), (∀ x ∈ l, ∃ k, x.1 = humanOf k ∧ InC g .node (p ++ [k]) x.2) →
    Tri L g (fun _ xs => Lst L xs) (enumItemsP d (pathText p) l) := by
  intro g l
  induction l generalizing g with
  | nil => intro _; exact tri_pure fun _ _ x hx => by cases hx
  | cons y l ih =>
    obtain ⟨key, item⟩ := y
    intro hl
    obtain ⟨k, h1, h2⟩ := hl (key, item) (by simp)
    simp only at h1 h2
    subst h1
    refine tri_bind (T_assertP h2) fun _ n e1 hn => ?_
    rw [← pathText_snoc]
    refine tri_bind (hd _ _ _ hn) fun _ a e2 ha => tri_bind (ih fun x hx => ?_) fun _ b _ hb => tri_pure fun _ _ x hx => ?_
    · obtain ⟨k, h3, h4⟩ := hl x (by simp [hx])
      exact ⟨k, h3, h4.mono (e1.trans e2)⟩
    · rcases List.mem_append.1 hx with hx | hx
      · exact ha x hx
      · exact hb x hx

theorem T_enumP (f k : Nat) : ∀ (g : Cls) (p : List Bytes) (n : Ptr), InC g .node p n → Tri L g (fun _ xs => Lst L xs) (enumP f k (pathText p) n : Prog (DD V) _) := by
  induction k with
  | zero => intro g p n _; exact tri_stop
  | succ k ih =>
    intro g p n hn
    refine tri_ite (fun _ => tri_pure fun _ _ x hx => by cases hx) fun _ => tri_bind (T_nodeP hn) fun _ x _ hx => tri_bind (T_EnumerateP f hx.1) fun _ items _ hi =>
      tri_bind (T_enumItemsP ih items hi) fun _ rest _ hr => tri_pure fun _ _ y hy => ?_
    rcases List.mem_append.1 hy with hy | hy
    · obtain ⟨v, h1, rfl⟩ := List.mem_map.1 hy
      exact ⟨p, rfl, hx.2 v (by simpa using h1)⟩
    · exact hr y hy

theorem T_EnumerateTreeP (f : Nat) {n : Ptr} (hn : InC g .node [] n) : Tri L g (fun _ xs => Lst L xs) (EnumerateTreeP f n : Prog (DD V) _) := T_enumP f f g [] n hn

/-! ## Calls that panic -/

/-- If the program panics, the memory it leaves fits an extension of the record. -/
def TriN (L : List Bytes → V → Prop) (g : Cls) {α : Type} (p : Prog (DD V) α) : Prop :=
  ∀ g1 h h', Ext g g1 → Typed L g1 h → p.fin h = (none, h') → ∃ g', Ext g1 g' ∧ Typed L g' h'

theorem Tri.n {P : Cls → α → Prop} {p : Prog (DD V) α} (hp : Tri L g P p) : TriN L g p := fun g1 h h' e ht hr => by
  obtain ⟨g', h1, h2, _⟩ := hp g1 h none h' e ht hr
  exact ⟨g', h1, h2⟩

theorem triN_bind {P : Cls → α → Prop} {p : Prog (DD V) α} {f : α → Prog (DD V) β} (hp : Tri L g P p) (hf : ∀ g' x, Ext g g' → P g' x → TriN L g' (f x)) : TriN L g (p >>= f) := by
  intro g1 h h' e ht hr
  rw [fin_bind] at hr
  obtain ⟨r, hm⟩ : ∃ r, p.fin h = r := ⟨_, rfl⟩
  obtain ⟨x, h1⟩ := r
  obtain ⟨g2, e2, t2, p2⟩ := hp g1 h x h1 e ht hm
  rw [hm] at hr
  cases x with
  | none => cases hr; exact ⟨g2, e2, t2⟩
  | some x =>
    obtain ⟨g3, e3, t3⟩ := hf g2 x (e.trans e2) (p2 x rfl) g2 h1 h' (Ext.refl _) t2 hr
    exact ⟨g3, e2.trans e3, t3⟩

/-- If assigning the value panics, nothing is assigned. -/
theorem N_setValP {n : Ptr} {v : V} {h h' : Heap (DD V)} (hr : (setValP n v).fin h = (none, h')) : h' = h := by
  cases n with
  | none => cases hr; rfl
  | some a =>
    have e : setValP (some a) v = Prog.lift kN (.read a fun c => .write a { c with d := some v } (.ret ())) := rfl
    rw [e] at hr
    unfold Prog.lift at hr
    simp only [Prog.fin] at hr
    cases hm : h.mem a with
    | none => rw [hm] at hr; cases hr; rfl
    | some c =>
      simp only [hm] at hr
      cases hc : kN.cell c with
      | none => simp only [hc] at hr; cases hr; rfl
      | some d => simp only [hc] at hr; cases hr

theorem N_setVal (n : Ptr) (v : V) : TriN L g (setValP n v) := by
  intro g1 h h' _ ht hr
  rw [N_setValP hr]; exact ⟨g1, Ext.refl _, ht⟩

theorem triN_then {p : Prog (DD V) α} {f : α → Prog (DD V) β} (hp : TriN L g p) (hf : ∀ x h h', (f x).fin h ≠ (none, h')) : TriN L g (p >>= f) := by
  intro g1 h h' e ht hr
  rw [fin_bind] at hr
  obtain ⟨r, hm⟩ : ∃ r, p.fin h = r := ⟨_, rfl⟩
  obtain ⟨x, h1⟩ := r
  rw [hm] at hr
  cases x with
  | none => cases hr; exact hp g1 h h' e ht hm
  | some x => exact absurd hr (hf x h1 h')

theorem N_InsertP (f : Nat) {n : Ptr} (hn : InC g .node [] n) {d : Name} {ls : List Bytes} (hd : Holds d ls) (v : V) : TriN L g (InsertP f n d v) := by
  unfold InsertP
  simp only [getLabelsP hd]
  exact triN_bind (T_copyP hn) fun _ _ _ hr => triN_bind (T_foldP (S := fun g p s => InC g .node p s) (fun _ _ _ _ e h => h.mono e) (fun g p s l h => T_insertStepP f g p s l h) ls hr)
    fun _ _ _ _ => triN_then (N_setVal _ _) fun _ h h' e => by cases e

theorem N_inpP (f : Nat) {n : Ptr} (hn : InC g .node [] n) {d : Name} {ls : List Bytes} (hd : Holds d ls) (v : V) : TriN L g (inpP f (.inplace d v) n) := by
  refine triN_then (p := InplaceInsertP f n d v) ?_ fun _ h h' e => by cases e
  unfold InplaceInsertP
  simp only [getLabelsP hd]
  exact triN_bind (T_ensureBranchesP hn) fun _ _ e _ => triN_bind (T_foldP (S := fun g p s => InC g .node p s) (fun _ _ _ _ e h => h.mono e)
    (fun g p s l h => T_inplaceStepP f g p s l h) ls (hn.mono e)) fun _ _ _ _ => N_setVal _ _

/-! ## Histories -/

/-- The call puts the value `v` under the domain `q`. -/
def Puts (o : Op V) (q : List Bytes) (v : V) : Prop := ∃ d, Parsed d q ∧ (o = .insert d v ∨ o = .inplace d v)

theorem T_cowP (f : Nat) {o : Op V} (ho : Named o) (hL : ∀ q v, Puts o q v → L q v) {r : Ptr} (hr : InC g .node [] r) : Tri L g (fun g' r => InC g' .node [] r) (cowP f o r) := by
  obtain ⟨s, hs⟩ := ho
  obtain ⟨ls, hl⟩ := holds_of_parse hs
  cases o with
  | insert d v => exact T_InsertP f hr hl (hL _ _ ⟨d, ⟨⟨s, hs⟩, hl.labels⟩, .inl rfl⟩)
  | delete d => exact tri_bind (T_DeleteP f hr hl) fun _ _ _ hx => tri_pure fun _ e => hx.mono e
  | deleteSub d => exact tri_bind (T_DeleteSubdomainsP f hr hl) fun _ _ _ hx => tri_pure fun _ e => hx.mono e
  | inplace d v => exact tri_stop

theorem T_inpP (f : Nat) {o : Op V} (ho : Named o) (hL : ∀ q v, Puts o q v → L q v) {r : Ptr} (hr : InC g .node [] r) : Tri L g (fun g' r => InC g' .node [] r) (inpP f o r) := by
  obtain ⟨s, hs⟩ := ho
  obtain ⟨ls, hl⟩ := holds_of_parse hs
  cases o with
  | inplace d v => exact tri_bind (T_InplaceInsertP f hr hl (hL _ _ ⟨d, ⟨⟨s, hs⟩, hl.labels⟩, .inr rfl⟩)) fun _ _ e _ => tri_pure fun _ e' => hr.mono (e.trans e')
  | insert d v => exact tri_stop
  | delete d => exact tri_stop
  | deleteSub d => exact tri_stop

theorem N_cow (f : Nat) {o : Op V} (ho : Named o) {r : Ptr} (hr : InC g .node [] r) : TriN L g (cowP f o r) := by
  obtain ⟨s, hs⟩ := ho
  obtain ⟨ls, hl⟩ := holds_of_parse hs
  cases o with
  | insert d v => exact N_InsertP f hr hl v
  | delete d => exact (tri_bind (T_DeleteP f hr hl) fun _ _ _ hx => tri_pure fun _ e => hx.mono e : Tri L g (fun g' r => InC g' .node [] r) _).n
  | deleteSub d => exact (tri_bind (T_DeleteSubdomainsP f hr hl) fun _ _ _ hx => tri_pure fun _ e => hx.mono e : Tri L g (fun g' r => InC g' .node [] r) _).n
  | inplace d v => exact (tri_stop : Tri L g (fun _ _ => True) _).n

theorem N_inp (f : Nat) {o : Op V} (ho : Named o) {r : Ptr} (hr : InC g .node [] r) : TriN L g (inpP f o r) := by
  obtain ⟨s, hs⟩ := ho
  obtain ⟨ls, hl⟩ := holds_of_parse hs
  cases o with
  | inplace d v => exact N_inpP f hr hl v
  | insert d v => exact (tri_stop : Tri L g (fun _ _ => True) _).n
  | delete d => exact (tri_stop : Tri L g (fun _ _ => True) _).n
  | deleteSub d => exact (tri_stop : Tri L g (fun _ _ => True) _).n

/-- The memory and the held trees fit a record. -/
def Fits (L : List Bytes → V → Prop) (s : OStore (DD V) Ptr) : Prop := ∃ g, Typed L g s.heap ∧ ∀ r ∈ s.roots, InC g .node [] r

/-- The calls that returned account for every value. -/
theorem fits_execR {st : Bool} {f : Nat} {ops : List (SOp (Op V) × Bool)} (hc : ∀ i o b, (SOp.cow i o, b) ∈ ops → Named o ∧ (b = true → ∀ q v, Puts o q v → L q v))
    (hi : ∀ i o b, (SOp.inp i o, b) ∈ ops → Named o ∧ (b = true → ∀ q v, Puts o q v → L q v)) {s s' : OStore (DD V) Ptr} (hs : Fits L s)
    (he : s.execR (domImpl st f) ops = some s') : Fits L s' := by
  induction ops generalizing s with
  | nil => cases he; exact hs
  | cons op ops ih =>
    obtain ⟨op, b⟩ := op
    have ih := fun {s} => @ih (fun i o b h => hc i o b (List.mem_cons_of_mem _ h)) (fun i o b h => hi i o b (List.mem_cons_of_mem _ h)) s
    obtain ⟨g, t, hr⟩ := hs
    cases b with
    | true =>
      simp only [OStore.execR] at he
      split at he
      · rename_i s1 h1
        refine ih ?_ he
        cases op with
        | fresh =>
          simp only [OStore.step] at h1
          split at h1
          · rename_i r h' hx
            cases h1
            have T : Tri L g (fun g' r => InC g' .node [] r) ((domImpl (V := V) st f).fresh) :=
              tri_ite (fun _ => T_newNodeP InA.none fun _ h => by cases h) fun _ => tri_pure fun _ _ => InA.none
            obtain ⟨g', e, t', p'⟩ := T g _ _ _ (Ext.refl _) t (fin_of_run hx)
            refine ⟨g', t', fun x hx => ?_⟩
            rcases List.mem_append.1 hx with hx | hx
            · exact (hr x hx).mono e
            · rw [List.mem_singleton.1 hx]; exact p' _ rfl
          · cases h1
        | drop i => cases h1; exact ⟨g, t, fun x hx => hr x (List.mem_of_mem_eraseIdx hx)⟩
        | cow i o =>
          simp only [OStore.step] at h1
          split at h1
          · cases h1; exact ⟨g, t, hr⟩
          · rename_i r0 hr0
            split at h1
            · rename_i r h' hx
              cases h1
              have ho := hc i o _ List.mem_cons_self
              obtain ⟨g', e, t', p'⟩ := T_cowP f ho.1 (ho.2 rfl) (hr r0 (List.mem_of_getElem? hr0)) g _ _ _ (Ext.refl _) t (fin_of_run hx)
              refine ⟨g', t', fun x hx => ?_⟩
              rcases List.mem_append.1 hx with hx | hx
              · exact (hr x hx).mono e
              · rw [List.mem_singleton.1 hx]; exact p' _ rfl
            · cases h1
        | inp i o =>
          simp only [OStore.step] at h1
          split at h1
          · cases h1; exact ⟨g, t, hr⟩
          · rename_i r0 hr0
            split at h1
            · rename_i r h' hx
              cases h1
              have ho := hi i o _ List.mem_cons_self
              obtain ⟨g', e, t', p'⟩ := T_inpP f ho.1 (ho.2 rfl) (hr r0 (List.mem_of_getElem? hr0)) g _ _ _ (Ext.refl _) t (fin_of_run hx)
              refine ⟨g', t', fun x hx => ?_⟩
              rcases List.mem_or_eq_of_mem_set hx with hx | rfl
              · exact (hr x hx).mono e
              · exact p' _ rfl
            · cases h1
      · cases he
    | false =>
      simp only [OStore.execR] at he
      cases h1 : s.recover (domImpl st f) op with
      | none => rw [h1] at he; cases he
      | some s1 =>
        rw [h1] at he
        refine ih ?_ he
        cases op with
        | fresh => cases h1
        | drop i => cases h1
        | cow i o =>
          simp only [OStore.recover] at h1
          cases hr0 : s.roots[i]? with
          | none => rw [hr0] at h1; cases h1
          | some r0 =>
            rw [hr0, Option.bind_some] at h1
            split at h1
            · rename_i h' hx
              cases h1
              have ho := hc i o _ List.mem_cons_self
              obtain ⟨g', e, t'⟩ := N_cow f ho.1 (hr r0 (List.mem_of_getElem? hr0)) g _ _ (Ext.refl _) t (fin_of_crash hx)
              exact ⟨g', t', fun x hx => (hr x hx).mono e⟩
            · cases h1
        | inp i o =>
          simp only [OStore.recover] at h1
          cases hr0 : s.roots[i]? with
          | none => rw [hr0] at h1; cases h1
          | some r0 =>
            rw [hr0, Option.bind_some] at h1
            split at h1
            · rename_i h' hx
              cases h1
              have ho := hi i o _ List.mem_cons_self
              obtain ⟨g', e, t'⟩ := N_inp f ho.1 (hr r0 (List.mem_of_getElem? hr0)) g _ _ (Ext.refl _) t (fin_of_crash hx)
              exact ⟨g', t', fun x hx => (hr x hx).mono e⟩
            · cases h1

theorem fits_init : Fits L (OStore.init : OStore (DD V) Ptr) := ⟨fun _ => none, ⟨fun _ _ h => by simp [OStore.init, Heap.empty] at h, fun _ _ h => by cases h⟩, fun _ h => by cases h⟩

theorem answer_fin {α : Type} {p : Prog (DD V) α} {h : Heap (DD V)} {x : α} (ha : answer p h = some x) : ∃ h', p.fin h = (some x, h') := by
  unfold answer at ha
  split at ha
  · rename_i y h' hr
    cases ha
    exact ⟨h', fin_of_run hr⟩
  · cases ha

/-- What `Get` finds. -/
theorem fits_get {s : OStore (DD V) Ptr} (hs : Fits L s) {r : Ptr} (hr : r ∈ s.roots) {f : Nat} {d : Name} {ls : List Bytes} (hd : Parsed d ls) {v : V}
    (hg : answer (DomHeap.GetP f r d) s.heap = some (some v)) : ∃ q, q ≠ [] ∧ q <+: ls ∧ L q v := by
  obtain ⟨g, t, h1⟩ := hs
  obtain ⟨h', hf⟩ := answer_fin hg
  obtain ⟨_, _, _, p⟩ := T_GetP f (h1 r hr) hd.holds g _ _ _ (Ext.refl _) t hf
  exact p _ rfl v rfl

/-- What `Enumerate` lists. -/
theorem fits_enumerate {s : OStore (DD V) Ptr} (hs : Fits L s) {r : Ptr} (hr : r ∈ s.roots) {f : Nat} {xs : List (Bytes × V)}
    (hg : answer (EnumerateTreeP f r) s.heap = some xs) : Lst L xs := by
  obtain ⟨g, t, h1⟩ := hs
  obtain ⟨h', hf⟩ := answer_fin hg
  obtain ⟨_, _, _, p⟩ := T_EnumerateTreeP f (h1 r hr) g _ _ _ (Ext.refl _) t hf
  exact p _ rfl

end Verif.DomHeap
