import Verif.IPHeap.UpdateModel
import Verif.IPHeap.Rep

/-! # Walking over the nodes of a tree and changing their values in place -/

namespace Verif.IPHeap
open Verif Verif.Heap Verif.Heap.Prog Verif.Heap.ATree Verif.Num Verif.NumHeap Verif.IP

section
variable {w : Nat} {X W σ : Type} (g : X → W) (own : Addr → X → Nat) (Ok : Heap (ND w W) → X → Prop)

/-- A tree in memory whose values may stand for further objects in memory. -/
def RepX (h : Heap (ND w W)) : ATree (ND w X) → Prop
  | .nil => True
  | .node ad l r => h.mem ad.1 = some ⟨ad.2.mapV g, ptr l, ptr r⟩ ∧ ad.1 < h.next ∧ Ok h ad.2.value ∧ RepX h l ∧ RepX h r

/-- Occurrences of an address in the tree and in its values. -/
def totX (x : Addr) : ATree (ND w X) → Nat
  | .nil => 0
  | .node ad l r => (if ad.1 = x then 1 else 0) + own x ad.2.value + totX x l + totX x r

theorem repX_iff {h : Heap (ND w W)} {t : ATree (ND w X)} : RepX g Ok h t ↔ Rep h (mapA g t) ∧ ∀ v ∈ vals (erase t), Ok h v := by
  induction t with
  | nil => simp [RepX, vals]
  | node ad l r ihl ihr =>
    simp only [RepX, ihl, ihr, mapA_node, Rep, ptr_mapA, erase_node, vals, List.mem_cons, List.mem_append]
    constructor
    · rintro ⟨h1, h2, h3, ⟨h4, h5⟩, h6, h7⟩
      refine ⟨⟨h1, h2, h4, h6⟩, ?_⟩
      rintro v (rfl | q | q)
      · exact h3
      · exact h5 v q
      · exact h7 v q
    · rintro ⟨⟨h1, h2, h4, h6⟩, h3⟩
      exact ⟨h1, h2, h3 _ (.inl rfl), ⟨h4, fun v hv => h3 v (.inr (.inl hv))⟩, h6, fun v hv => h3 v (.inr (.inr hv))⟩

theorem totX_eq (x : Addr) (t : ATree (ND w X)) : totX own x t = cnt x t + sumV (own x) (erase t) := by
  induction t with
  | nil => rfl
  | node ad l r ihl ihr => simp only [totX, ihl, ihr, cnt_node, erase_node, sumV_node]; omega

/-- `updWalk` keeping the addresses. -/
def updA (F : ND w X → σ → X × σ) : ATree (ND w X) → σ → ATree (ND w X) × σ
  | .nil, s => (.nil, s)
  | .node ad l r, s =>
    let a := if ad.2.leaf then F ad.2 s else (ad.2.value, s)
    let x := updA F l a.2
    let y := updA F r x.2
    (.node (ad.1, { ad.2 with value := a.1 }) x.1 y.1, y.2)

/-- `updDesc` keeping the addresses. -/
def updDescA (F : ND w X → σ → X × σ) : ATree (ND w X) → σ → ATree (ND w X) × σ
  | .nil, s => (.nil, s)
  | .node ad l r, s =>
    let x := updA F l s
    let y := updA F r x.2
    (.node ad x.1 y.1, y.2)

/-- `updTarget` keeping the addresses. -/
def updTargetA [KeySize w] (G : ATree (ND w X) → σ → ATree (ND w X) × σ) : ATree (ND w X) → BitVec w → Nat → σ → ATree (ND w X) × σ
  | .nil, _, _, s => (.nil, s)
  | .node ad l r, key, bits, s =>
    if ad.2.bits > bits then (.node ad l r, s)
    else if ad.2.bits = bits then
      if ad.2.leaf && agree ad.2.key key ad.2.bits then G (.node ad l r) s else (.node ad l r, s)
    else if !agree ad.2.key key ad.2.bits then (.node ad l r, s)
    else if branch key ad.2.bits then (.node ad l (updTargetA G r key bits s).1, (updTargetA G r key bits s).2)
    else (.node ad (updTargetA G l key bits s).1 r, (updTargetA G l key bits s).2)

theorem updA_erase (F : ND w X → σ → X × σ) (t : ATree (ND w X)) (s : σ) :
    erase (updA F t s).1 = (updWalk F (erase t) s).1 ∧ (updA F t s).2 = (updWalk F (erase t) s).2 := by
  induction t generalizing s with
  | nil => exact ⟨rfl, rfl⟩
  | node ad l r ihl ihr => simp only [updA, erase_node, updWalk, ihl, ihr]; exact ⟨trivial, trivial⟩

theorem updDescA_erase (F : ND w X → σ → X × σ) (t : ATree (ND w X)) (s : σ) :
    erase (updDescA F t s).1 = (updDesc F (erase t) s).1 ∧ (updDescA F t s).2 = (updDesc F (erase t) s).2 := by
  cases t with
  | nil => exact ⟨rfl, rfl⟩
  | node ad l r => simp only [updDescA, erase_node, updDesc, updA_erase]; exact ⟨trivial, trivial⟩

theorem updTargetA_erase [KeySize w] {G : ATree (ND w X) → σ → ATree (ND w X) × σ} {G' : NTree w X → σ → NTree w X × σ}
    (hG : ∀ t s, erase (G t s).1 = (G' (erase t) s).1 ∧ (G t s).2 = (G' (erase t) s).2) (t : ATree (ND w X)) (k : BitVec w) (b : Nat) (s : σ) :
    erase (updTargetA G t k b s).1 = (updTarget G' (erase t) k b s).1 ∧ (updTargetA G t k b s).2 = (updTarget G' (erase t) k b s).2 := by
  induction t with
  | nil => exact ⟨rfl, rfl⟩
  | node ad l r ihl ihr =>
    simp only [updTargetA, erase_node, updTarget]
    repeat' split
    all_goals simp [ihl, ihr, hG]

variable {own} in
theorem updA_same {F : ND w X → σ → X × σ} (ho : ∀ x d s, own x (F d s).1 = own x d.value) (t : ATree (ND w X)) (s : σ) :
    ptr (updA F t s).1 = ptr t ∧ ∀ x, totX own x (updA F t s).1 = totX own x t := by
  induction t generalizing s with
  | nil => exact ⟨rfl, fun _ => rfl⟩
  | node ad l r ihl ihr =>
    refine ⟨rfl, fun x => ?_⟩
    simp only [updA, totX, ihl, ihr]
    by_cases e : ad.2.leaf = true <;> simp [e, ho]

variable {own} in
theorem updDescA_same {F : ND w X → σ → X × σ} (ho : ∀ x d s, own x (F d s).1 = own x d.value) (t : ATree (ND w X)) (s : σ) :
    ptr (updDescA F t s).1 = ptr t ∧ ∀ x, totX own x (updDescA F t s).1 = totX own x t := by
  cases t with
  | nil => exact ⟨rfl, fun _ => rfl⟩
  | node ad l r => exact ⟨rfl, fun x => by simp only [updDescA, totX, updA_same ho]⟩

variable {own} in
theorem updTargetA_same [KeySize w] {G : ATree (ND w X) → σ → ATree (ND w X) × σ}
    (hG : ∀ t s, ptr (G t s).1 = ptr t ∧ ∀ x, totX own x (G t s).1 = totX own x t) (t : ATree (ND w X)) (k : BitVec w) (b : Nat) (s : σ) :
    ptr (updTargetA G t k b s).1 = ptr t ∧ ∀ x, totX own x (updTargetA G t k b s).1 = totX own x t := by
  induction t with
  | nil => exact ⟨rfl, fun _ => rfl⟩
  | node ad l r ihl ihr =>
    simp only [updTargetA]
    repeat' split
    all_goals first
      | exact ⟨rfl, fun _ => rfl⟩
      | exact hG _ _
      | exact ⟨rfl, fun x => by simp [totX, ihl, ihr]⟩

/-- What the body of the loop does with a node: it may change the value of the node and the objects the value stands for. -/
structure Visit (visit : Ptr → σ → Prog (ND w W) σ) (F : ND w X → σ → X × σ) : Prop where
  own_eq : ∀ x d s, own x (F d s).1 = own x d.value
  run : ∀ {h : Heap (ND w W)} {a : Addr} {d : ND w X} {p q : Ptr} {s : σ}, d.leaf = true → h.mem a = some ⟨d.mapV g, p, q⟩ → a < h.next → Ok h d.value →
    own a d.value = 0 → (∀ x, own x d.value ≤ 1) →
    wp (fun x => x = a ∨ 1 ≤ own x d.value) (visit (some a) s) (fun s' h' => s' = (F d s).2 ∧
      h'.mem a = some ⟨({ d with value := (F d s).1 } : ND w X).mapV g, p, q⟩ ∧ Ok h' (F d s).1) h

/-- The objects the values stand for. -/
structure Objs : Prop where
  frame : ∀ {h h' : Heap (ND w W)} {v : X}, Ok h v → h.next ≤ h'.next → (∀ a, 1 ≤ own a v → h'.mem a = h.mem a) → Ok h' v
  lt : ∀ {h : Heap (ND w W)} {v : X} {a : Addr}, Ok h v → 1 ≤ own a v → a < h.next

variable {g own Ok}

theorem RepX.lt (O : Objs own Ok) {h : Heap (ND w W)} {t : ATree (ND w X)} (ht : RepX g Ok h t) {a : Addr} (ha : 1 ≤ totX own a t) : a < h.next := by
  induction t with
  | nil => simp [totX] at ha
  | node ad l r ihl ihr =>
    obtain ⟨h1, h2, h3, h4, h5⟩ := ht
    simp only [totX] at ha
    by_cases e : ad.1 = a
    · subst e; exact h2
    · by_cases e1 : 1 ≤ own a ad.2.value
      · exact O.lt h3 e1
      · by_cases e2 : 1 ≤ totX own a l
        · exact ihl h4 e2
        · exact ihr h5 (by simp only [e, if_false] at ha; omega)

theorem RepX.frame (O : Objs own Ok) {h h' : Heap (ND w W)} {t : ATree (ND w X)} (ht : RepX g Ok h t) (hn : h.next ≤ h'.next)
    (hm : ∀ a, 1 ≤ totX own a t → h'.mem a = h.mem a) : RepX g Ok h' t := by
  induction t with
  | nil => trivial
  | node ad l r ihl ihr =>
    obtain ⟨h1, h2, h3, h4, h5⟩ := ht
    simp only [totX] at hm
    refine ⟨?_, by omega, O.frame h3 hn fun a ha => hm a (by omega), ihl h4 fun a ha => hm a (by omega), ihr h5 fun a ha => hm a (by omega)⟩
    rw [hm ad.1 (by simp only [if_true]; omega)]; exact h1

variable {visit : Ptr → σ → Prog (ND w W) σ} {F : ND w X → σ → X × σ} (O : Objs own Ok) (hv : Visit g own Ok visit F)
include O hv

/-- Walking over two trees one after the other. -/
theorem walk2_spec {f : Nat} {l r : ATree (ND w X)}
    (ih : ∀ (t : ATree (ND w X)) (h : Heap (ND w W)) (s : σ), (t = l ∨ t = r) → t ≠ .nil → RepX g Ok h t → (∀ x, totX own x t ≤ 1) →
      wp (fun x => 1 ≤ totX own x t) (walkP visit f (ptr t) s) (fun s' h' => s' = (updA F t s).2 ∧ RepX g Ok h' (updA F t s).1) h)
    {h : Heap (ND w W)} {s : σ} (hl : RepX g Ok h l) (hr : RepX g Ok h r) (hc : ∀ x, totX own x l + totX own x r ≤ 1) :
    wp (fun x => 1 ≤ totX own x l + totX own x r) (do
        let s ← ifNotNil (ptr l) s (walkP visit f (ptr l) s)
        ifNotNil (ptr r) s (walkP visit f (ptr r) s))
      (fun s' h' => s' = (updA F r (updA F l s).2).2 ∧ RepX g Ok h' (updA F l s).1 ∧ RepX g Ok h' (updA F r (updA F l s).2).1) h := by
  have one : ∀ (t : ATree (ND w X)) (h : Heap (ND w W)) (s : σ), (t = l ∨ t = r) → RepX g Ok h t → (∀ x, totX own x t ≤ 1) →
      wp (fun x => 1 ≤ totX own x t) (ifNotNil (ptr t) s (walkP visit f (ptr t) s)) (fun s' h' => (s' = (updA F t s).2 ∧ RepX g Ok h' (updA F t s).1) ∧
        h.next ≤ h'.next ∧ ∀ a, a < h.next → ¬ 1 ≤ totX own a t → h'.mem a = h.mem a) h := by
    intro t h s e ht hc
    cases t with
    | nil => exact ⟨⟨rfl, trivial⟩, Nat.le_refl _, fun _ _ _ => rfl⟩
    | node ad x y =>
      rw [ptr_node, ifNotNil_some]
      exact wp_frame (ih (.node ad x y) h s e (by simp) ht hc)
  rw [wp_bind]
  refine wp_mono (fun x (q : 1 ≤ totX own x l) => by omega) ?_ (one l h s (.inl rfl) hl fun x => by have := hc x; omega)
  rintro s1 h1 ⟨⟨rfl, r1⟩, n1, m1⟩
  have hr1 : RepX g Ok h1 r := hr.frame O n1 fun a ha => m1 a (hr.lt O ha) (by have := hc a; omega)
  refine wp_mono (fun x (q : 1 ≤ totX own x r) => by omega) ?_ (one r h1 _ (.inr rfl) hr1 fun x => by have := hc x; omega)
  rintro s2 h2 ⟨⟨rfl, r2⟩, n2, m2⟩
  refine ⟨rfl, r1.frame O n2 fun a ha => m2 a ?_ ?_, r2⟩
  · exact r1.lt O ha
  · rw [(updA_same hv.own_eq l s).2] at ha
    have := hc a; omega

theorem walkP_spec (f : Nat) (t : ATree (ND w X)) (hf : t.height < f) {h : Heap (ND w W)} (ht : RepX g Ok h t) (hn : t ≠ .nil) (hc : ∀ x, totX own x t ≤ 1) (s : σ) :
    wp (fun x => 1 ≤ totX own x t) (walkP visit f (ptr t) s) (fun s' h' => s' = (updA F t s).2 ∧ RepX g Ok h' (updA F t s).1) h := by
  induction f generalizing t h s with
  | zero => omega
  | succ f ih =>
  cases t with
  | nil => exact absurd rfl hn
  | node ad l r =>
    obtain ⟨a, d⟩ := ad
    obtain ⟨h1, h2, h3, h4, h5⟩ := id ht
    simp only at h1 h2 h3
    simp only [totX] at hc
    have ca : own a d.value = 0 ∧ totX own a l = 0 ∧ totX own a r = 0 := by have := hc a; simp only [if_true] at this; omega
    simp only [BTree.height_node] at hf
    have two := fun (h' : Heap (ND w W)) (s' : σ) (p1 : RepX g Ok h' l) (p2 : RepX g Ok h' r) =>
      walk2_spec O hv (f := f) (l := l) (r := r) (h := h') (s := s')
        (fun t h s e hn ht hc => ih t (by rcases e with rfl | rfl <;> omega) ht hn hc s) p1 p2 (fun x => by have := hc x; omega)
    -- after the visit
    have fin : ∀ (h' : Heap (ND w W)) (s' : σ) (v : X), h.next ≤ h'.next → (∀ b, b < h.next → ¬ (b = a ∨ 1 ≤ own b d.value) → h'.mem b = h.mem b) →
        h'.mem a = some ⟨({ d with value := v } : ND w X).mapV g, ptr l, ptr r⟩ → Ok h' v → (∀ x, own x v = own x d.value) →
        wp (fun x => 1 ≤ totX own x (.node (a, d) l r)) (do
            let s ← ifNotNil (ptr l) s' (walkP visit f (ptr l) s')
            ifNotNil (ptr r) s (walkP visit f (ptr r) s))
          (fun s'' h'' => s'' = (updA F r (updA F l s').2).2 ∧
            RepX g Ok h'' (.node (a, { d with value := v }) (updA F l s').1 (updA F r (updA F l s').2).1)) h' := by
      intro h' s' v hn hm ha hv' hov
      have hl' : RepX g Ok h' l := h4.frame O hn fun b hb => hm b (h4.lt O hb) (by
        have := hc b
        rintro (rfl | q)
        · omega
        · split at this <;> omega)
      have hr' : RepX g Ok h' r := h5.frame O hn fun b hb => hm b (h5.lt O hb) (by
        have := hc b
        rintro (rfl | q)
        · omega
        · split at this <;> omega)
      refine wp_mono (fun x q => ?_) ?_ (wp_frame (two h' s' hl' hr'))
      · simp only [totX]; omega
      rintro s'' h'' ⟨⟨rfl, e1, e2⟩, n2, m2⟩
      refine ⟨rfl, ?_, by simp only; omega, ?_, e1, e2⟩
      · rw [(updA_same hv.own_eq l _).1, (updA_same hv.own_eq r _).1, ← ha]
        exact m2 a (by omega) (by omega)
      · refine O.frame hv' n2 fun b hb => m2 b (O.lt hv' hb) ?_
        rw [hov] at hb
        have := hc b
        split at this <;> omega
    simp only [walkP, ptr_node, wp_bind, wp_load h1, mapV_leaf]
    by_cases hlf : d.leaf = true
    · simp only [hlf, if_true]
      have e : updA F (.node (a, d) l r) s = (.node (a, { d with value := (F d s).1 }) (updA F l (F d s).2).1 (updA F r (updA F l (F d s).2).2).1,
        (updA F r (updA F l (F d s).2).2).2) := by simp [updA, hlf]
      rw [e, wp_bind]
      refine wp_mono (fun x q => ?_) ?_ (wp_frame (hv.run (s := s) hlf h1 h2 h3 ca.1 fun x => by have := hc x; omega))
      · simp only [totX]
        rcases q with rfl | q
        · simp only [if_true]; omega
        · omega
      rintro s' h' ⟨⟨rfl, q1, q2⟩, n1, m1⟩
      exact fin h' _ _ n1 m1 q1 q2 fun x => hv.own_eq x d s
    · simp only [hlf]
      have e : updA F (.node (a, d) l r) s = (.node (a, d) (updA F l s).1 (updA F r (updA F l s).2).1, (updA F r (updA F l s).2).2) := by
        obtain ⟨dk, db, dl, dv⟩ := d
        cases dl
        · rfl
        · exact absurd rfl hlf
      rw [e]
      have := fin h s d.value (Nat.le_refl _) (fun _ _ _ => rfl) h1 h3 (fun _ => rfl)
      exact this

theorem descP_spec {f : Nat} {t : ATree (ND w X)} (hf : t.height < f) {h : Heap (ND w W)} (ht : RepX g Ok h t) (hn : t ≠ .nil) (hc : ∀ x, totX own x t ≤ 1) (s : σ) :
    wp (fun x => 1 ≤ totX own x t) (descP visit f (ptr t) s) (fun s' h' => s' = (updDescA F t s).2 ∧ RepX g Ok h' (updDescA F t s).1) h := by
  cases t with
  | nil => exact absurd rfl hn
  | node ad l r =>
    obtain ⟨a, d⟩ := ad
    obtain ⟨h1, h2, h3, h4, h5⟩ := id ht
    simp only at h1 h2 h3
    simp only [totX] at hc
    have ca : own a d.value = 0 ∧ totX own a l = 0 ∧ totX own a r = 0 := by have := hc a; simp only [if_true] at this; omega
    simp only [BTree.height_node] at hf
    simp only [descP, ptr_node, wp_bind, wp_load h1, updDescA]
    rw [← wp_bind]
    refine wp_mono (fun x q => ?_) ?_ (wp_frame (walk2_spec O hv (f := f) (l := l) (r := r) (s := s)
      (fun t h s e hn ht hc => walkP_spec O hv f t (by rcases e with rfl | rfl <;> omega) ht hn hc s) h4 h5 (fun x => by have := hc x; omega)))
    · simp only [totX]; omega
    rintro s'' h'' ⟨⟨rfl, e1, e2⟩, n2, m2⟩
    refine ⟨rfl, ?_, by simp only; omega, ?_, e1, e2⟩
    · rw [(updA_same hv.own_eq l _).1, (updA_same hv.own_eq r _).1, ← h1]
      exact m2 a h2 (by omega)
    · refine O.frame h3 n2 fun b hb => m2 b (O.lt h3 hb) ?_
      have := hc b
      simp only at hb
      split at this <;> omega

end

section
variable {w : Nat} {X W σ : Type} {g : X → W} {own : Addr → X → Nat} {Ok : Heap (ND w W) → X → Prop} [KeySize w]

/-- Finding a node and changing the tree below it in place. -/
theorem target_spec (O : Objs own Ok) {K : Ptr → Prog (ND w W) σ} {G : ATree (ND w X) → σ → ATree (ND w X) × σ} {s : σ} {N : Nat}
    (hG : ∀ t s, ptr (G t s).1 = ptr t ∧ ∀ x, totX own x (G t s).1 = totX own x t) (hN : K none = pure s)
    {key : BitVec w} {bits : Nat} {Z : ND w X → Prop}
    (hK : ∀ (ad : Addr × ND w X) (l r : ATree (ND w X)) (h : Heap (ND w W)), ad.2.leaf = true → Z ad.2 → (BTree.node ad l r).height < N →
      RepX g Ok h (.node ad l r) → (∀ x, totX own x (.node ad l r) ≤ 1) →
      wp (fun x => 1 ≤ totX own x (.node ad l r)) (K (some ad.1)) (fun s' h' => s' = (G (.node ad l r) s).2 ∧ RepX g Ok h' (G (.node ad l r) s).1) h)
    (f : Nat) (t : ATree (ND w X)) (hZ : ∀ m ∈ enumerate (erase t), Z m) (hf : t.height < f) (hfN : t.height < N) {h : Heap (ND w W)} (ht : RepX g Ok h t) (hn : t ≠ .nil) (hc : ∀ x, totX own x t ≤ 1) :
    wp (fun x => 1 ≤ totX own x t) (exactMatchP f (ptr t) key bits >>= K)
      (fun s' h' => s' = (updTargetA G t key bits s).2 ∧ RepX g Ok h' (updTargetA G t key bits s).1) h := by
  induction f generalizing t with
  | zero => omega
  | succ f ih =>
  cases t with
  | nil => exact absurd rfl hn
  | node ad l r =>
    obtain ⟨a, d⟩ := ad
    obtain ⟨h1, h2, h3, h4, h5⟩ := id ht
    simp only at h1 h2 h3
    have hKt := fun q1 q2 => hK _ _ _ _ q1 q2 hfN ht hc
    simp only [erase_node, enumerate, List.mem_append] at hZ
    simp only [totX] at hc
    simp only [BTree.height_node] at hf hfN
    have ca : own a d.value = 0 ∧ totX own a l = 0 ∧ totX own a r = 0 := by have := hc a; simp only [if_true] at this; omega
    have e : ∀ r : Ptr, (if r ≠ none then pure r else pure none : Prog (ND w W) Ptr) = pure r := by
      intro r; cases r <;> rfl
    have stay : wp (fun x => 1 ≤ totX own x (.node (a, d) l r)) (K none) (fun s' h' => s' = s ∧ RepX g Ok h' (.node (a, d) l r)) h := by
      rw [hN]; exact ⟨rfl, ht⟩
    simp only [exactMatchP, ptr_node, wp_bind, wp_load h1, mapV_bits, mapV_leaf, mapV_key, updTargetA]
    by_cases c1 : d.bits > bits
    · simp only [c1, if_true]; exact stay
    · simp only [c1, if_false]
      by_cases c2 : d.bits = bits
      · simp only [c2, if_true]
        rw [c2] at *
        by_cases c3 : (d.leaf && agree d.key key bits) = true
        · have c4 : d.leaf = true := by simp at c3; exact c3.1
          simp only [c3, if_true]; exact hKt c4 (hZ _ (by simp [c4]))
        · simp only [c3]; exact stay
      · simp only [c2, if_false]
        by_cases c3 : (!agree d.key key d.bits) = true
        · simp only [c3, if_true]; exact stay
        · simp only [c3, if_false, e, Cell.child, Bool.false_eq_true]
          cases c4 : branch key d.bits
          all_goals simp only [if_true, if_false, Bool.false_eq_true, wp_bind]
          · cases l with
            | nil => simp only [ptr_nil, ifNotNil_none]; exact stay
            | node ad' l' r' =>
              simp only [ptr_node, ifNotNil_some, wp_pure]
              rw [← wp_bind]
              have cs := (updTargetA_same hG (.node ad' l' r') key bits s)
              refine wp_mono (fun x q => ?_) ?_ (wp_frame (ih (.node ad' l' r') (fun m hm => hZ m (.inl (.inr hm))) (by omega) (by omega) h4 (by simp) fun x => by have := hc x; omega))
              · simp only [totX] at q ⊢; omega
              rintro s' h' ⟨⟨rfl, e1⟩, n1, m1⟩
              refine ⟨rfl, ?_, by simp only; omega, ?_, e1, ?_⟩
              · rw [cs.1]; rw [← h1]; exact m1 a h2 (by omega)
              · refine O.frame h3 n1 fun b hb => m1 b (O.lt h3 hb) ?_
                have := hc b
                simp only at hb
                omega
              · refine h5.frame O n1 fun b hb => m1 b (h5.lt O hb) ?_
                have := hc b
                omega
          · cases r with
            | nil => simp only [ptr_nil, ifNotNil_none]; exact stay
            | node ad' l' r' =>
              simp only [ptr_node, ifNotNil_some, wp_pure]
              rw [← wp_bind]
              have cs := (updTargetA_same hG (.node ad' l' r') key bits s)
              refine wp_mono (fun x q => ?_) ?_ (wp_frame (ih (.node ad' l' r') (fun m hm => hZ m (.inr hm)) (by omega) (by omega) h5 (by simp) fun x => by have := hc x; omega))
              · simp only [totX] at q ⊢; omega
              rintro s' h' ⟨⟨rfl, e1⟩, n1, m1⟩
              refine ⟨rfl, ?_, by simp only; omega, ?_, ?_, e1⟩
              · rw [cs.1]; rw [← h1]; exact m1 a h2 (by omega)
              · refine O.frame h3 n1 fun b hb => m1 b (O.lt h3 hb) ?_
                have := hc b
                simp only at hb
                omega
              · refine h4.frame O n1 fun b hb => m1 b (h4.lt O hb) ?_
                have := hc b
                omega

end
end Verif.IPHeap
