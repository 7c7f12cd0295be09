import Verif.IPHeap.UpdateWalk
import Verif.IPHeap.Inplace
import Verif.IP.Update

/-! # `UpdateDescendants` on memory does what the functional model says, writing only to the nodes of the tree -/

namespace Verif.IPHeap
open Verif Verif.Heap Verif.Heap.Prog Verif.Heap.ATree Verif.Num Verif.NumHeap Verif.IP

variable {V σ : Type}

/-! ## Values seen through a function -/

section
variable {w : Nat} {X Y : Type} (g : X → Y)

theorem updWalk_map {F : ND w X → σ → X × σ} {G : ND w Y → σ → Y × σ} (hFG : ∀ n s, g (F n s).1 = (G (n.mapV g) s).1 ∧ (F n s).2 = (G (n.mapV g) s).2)
    (t : NTree w X) (s : σ) : mapT g (updWalk F t s).1 = (updWalk G (mapT g t) s).1 ∧ (updWalk F t s).2 = (updWalk G (mapT g t) s).2 := by
  induction t generalizing s with
  | nil => exact ⟨rfl, rfl⟩
  | node n l r ihl ihr =>
    have e : ∀ s, g (if n.leaf then F n s else (n.value, s)).1 = (if n.leaf then G (n.mapV g) s else (g n.value, s)).1 ∧
        (if n.leaf then F n s else (n.value, s)).2 = (if n.leaf then G (n.mapV g) s else (g n.value, s)).2 := by
      intro s
      cases n.leaf
      · exact ⟨rfl, rfl⟩
      · exact hFG n s
    simp only [updWalk, mapT_node, (e s).2, ihl, ihr, ND.mapV, (e s).1]
    exact ⟨trivial, trivial⟩

theorem updDesc_map {F : ND w X → σ → X × σ} {G : ND w Y → σ → Y × σ} (hFG : ∀ n s, g (F n s).1 = (G (n.mapV g) s).1 ∧ (F n s).2 = (G (n.mapV g) s).2)
    (t : NTree w X) (s : σ) : mapT g (updDesc F t s).1 = (updDesc G (mapT g t) s).1 ∧ (updDesc F t s).2 = (updDesc G (mapT g t) s).2 := by
  cases t with
  | nil => exact ⟨rfl, rfl⟩
  | node n l r => simp only [updDesc, mapT_node, updWalk_map g hFG]; exact ⟨trivial, trivial⟩

theorem updTarget_map [KeySize w] {F : NTree w X → σ → NTree w X × σ} {G : NTree w Y → σ → NTree w Y × σ}
    (hFG : ∀ t s, mapT g (F t s).1 = (G (mapT g t) s).1 ∧ (F t s).2 = (G (mapT g t) s).2) (t : NTree w X) (k : BitVec w) (b : Nat) (s : σ) :
    mapT g (updTarget F t k b s).1 = (updTarget G (mapT g t) k b s).1 ∧ (updTarget F t k b s).2 = (updTarget G (mapT g t) k b s).2 := by
  induction t with
  | nil => exact ⟨rfl, rfl⟩
  | node n l r ihl ihr =>
    simp only [updTarget, mapT_node, mapV_bits, mapV_leaf, mapV_key]
    by_cases c1 : n.bits > b
    · simp [c1]
    simp only [c1, if_false]
    by_cases c2 : n.bits = b
    · simp only [c2, if_true]
      by_cases c3 : (n.leaf && agree n.key k b) = true
      · simp only [c3, if_true]; exact hFG (.node n l r) s
      · simp only [c3]; exact ⟨rfl, rfl⟩
    simp only [c2, if_false]
    by_cases c3 : (!agree n.key k n.bits) = true
    · simp only [c3, if_true]; exact ⟨rfl, trivial⟩
    simp only [c3]
    by_cases c4 : branch k n.bits = true
    · simp [c4, ihr]
    · simp [c4, ihl]

theorem mapA_id (t : ATree (ND w X)) : mapA (fun x => x) t = t := by
  induction t with
  | nil => rfl
  | node ad l r ihl ihr => simp only [mapA_node, ihl, ihr]; rfl

end

/-! ## Nodes whose values are just values -/

theorem objs0 {w : Nat} {X W : Type} : Objs (w := w) (W := W) (fun _ (_ : X) => 0) (fun _ _ => True) :=
  ⟨fun _ _ _ => trivial, fun _ h => by simp at h⟩

theorem totX0 {w : Nat} {X : Type} (x : Addr) (t : ATree (ND w X)) : totX (fun _ _ => 0) x t = cnt x t := by
  induction t with
  | nil => rfl
  | node ad l r ihl ihr => simp [totX, ihl, ihr]

theorem repX0 {w : Nat} {X W : Type} {g : X → W} {h : Heap (ND w W)} {t : ATree (ND w X)} : RepX g (fun _ _ => True) h t ↔ Rep h (mapA g t) := by
  rw [repX_iff]; simp

variable (cb : σ → IPNet → V → (V × Bool) × σ)

theorem visit4_ok : Visit (fun x => x) (fun _ _ => 0) (fun _ _ => True) (visit4 cb) (fun (d : ND 32 V) => callBack cb (key4 d) d.value) where
  own_eq _ _ _ := rfl
  run {h a d p q s} _ ha hl _ _ _ := by
    simp only [visit4, wp_bind, wp_load ha]
    have e : (cb s (key4 (d.mapV fun x => x)) (d.mapV fun x => x).value) = cb s (key4 d) d.value := rfl
    rw [e]
    unfold callBack
    split
    · simp only [wp_bind, wp_upd ha]
      exact ⟨.inl trivial, rfl, by simp [ND.mapV], trivial⟩
    · exact ⟨rfl, ha, trivial⟩

theorem updateNode64P_ok {key : ND 64 (HV V) → IPNet} {key' : ND 64 V → IPNet} (hk : ∀ d, key (d.mapV .user) = key' d) :
    Visit HV.user (fun _ _ => 0) (fun _ _ => True) (updateNode64P cb key) (fun (d : ND 64 V) => callBack cb (key' d) d.value) where
  own_eq _ _ _ := rfl
  run {h a d p q s} _ ha hl _ _ _ := by
    simp only [updateNode64P, wp_bind, wp_load ha, mapV_value, hk]
    unfold callBack
    split
    · simp only [wp_bind, wp_upd ha]
      exact ⟨.inl trivial, rfl, by simp [ND.mapV], trivial⟩
    · exact ⟨rfl, ha, trivial⟩

/-! ## Nodes of `root64` -/

/-- `upd6` keeping the addresses. -/
def upd6A (n : ND 64 (AV V)) (s : σ) : AV V × σ :=
  match n.value with
  | .sub B => (.sub (updA (fun m => callBack cb (key6s n.key m) m.value) B s).1, (updA (fun m => callBack cb (key6s n.key m) m.value) B s).2)
  | .user v => (.user (callBack cb (key6 n) v s).1, (callBack cb (key6 n) v s).2)

/-- `updSub` keeping the addresses. -/
def updSubA (k : Pair64) (B : ATree (ND 64 V)) (s : σ) : ATree (ND 64 V) × σ :=
  let f := fun (m : ND 64 V) => callBack cb (key6s k.msKey m) m.value
  match B with
  | .nil => (.nil, s)
  | .node ad l r =>
    if ad.2.key = k.lsKey ∧ ad.2.bits = k.lsBits then updDescA f (.node ad l r) s
    else updTargetA (updDescA f) (.node ad l r) k.lsKey k.lsBits s

/-- `updTarget6` keeping the addresses. -/
def updTarget6A (k : Pair64) (P : ATree (ND 64 (AV V))) (s : σ) : ATree (ND 64 (AV V)) × σ :=
  match P with
  | .nil => (.nil, s)
  | .node ad l r =>
    match ad.2.value with
    | .sub B => (.node (ad.1, { ad.2 with value := .sub (updSubA cb k B s).1 }) l r, (updSubA cb k B s).2)
    | .user _ => updDescA (upd6A cb) (.node ad l r) s

theorem upd6A_tv (n : ND 64 (AV V)) (s : σ) : toTV (upd6A cb n s).1 = (upd6 cb (n.mapV toTV) s).1 ∧ (upd6A cb n s).2 = (upd6 cb (n.mapV toTV) s).2 := by
  obtain ⟨key, bits, leaf, value⟩ := n
  cases value with
  | user v => exact ⟨rfl, rfl⟩
  | sub B =>
    simp only [upd6A, upd6, ND.mapV, toTV, updA_erase]
    exact ⟨trivial, trivial⟩

theorem updSubA_erase (k : Pair64) (B : ATree (ND 64 V)) (s : σ) :
    erase (updSubA cb k B s).1 = (updSub cb k (erase B) s).1 ∧ (updSubA cb k B s).2 = (updSub cb k (erase B) s).2 := by
  cases B with
  | nil => exact ⟨rfl, rfl⟩
  | node ad l r =>
    simp only [updSubA, updSub, erase_node]
    split
    · exact updDescA_erase _ _ s
    · exact updTargetA_erase (fun t s => updDescA_erase _ t s) _ _ _ s

/-- `updTarget6`, nested trees with addresses. -/
def updTarget6M (k : Pair64) (P : NTree 64 (AV V)) (s : σ) : NTree 64 (AV V) × σ :=
  match P with
  | .nil => (.nil, s)
  | .node n l r =>
    match n.value with
    | .sub B => (.node { n with value := .sub (updSubA cb k B s).1 } l r, (updSubA cb k B s).2)
    | .user _ => updDesc (upd6A cb) (.node n l r) s

theorem updTarget6A_erase (k : Pair64) (P : ATree (ND 64 (AV V))) (s : σ) :
    erase (updTarget6A cb k P s).1 = (updTarget6M cb k (erase P) s).1 ∧ (updTarget6A cb k P s).2 = (updTarget6M cb k (erase P) s).2 := by
  cases P with
  | nil => exact ⟨rfl, rfl⟩
  | node ad l r =>
    simp only [updTarget6A, updTarget6M, erase_node]
    cases ad.2.value with
    | sub B => exact ⟨rfl, rfl⟩
    | user v => exact updDescA_erase (upd6A cb) (.node ad l r) s

theorem updTarget6M_tv (k : Pair64) (P : NTree 64 (AV V)) (s : σ) :
    mapT toTV (updTarget6M cb k P s).1 = (updTarget6 cb k (mapT toTV P) s).1 ∧ (updTarget6M cb k P s).2 = (updTarget6 cb k (mapT toTV P) s).2 := by
  cases P with
  | nil => exact ⟨rfl, rfl⟩
  | node n l r =>
    obtain ⟨key, bits, leaf, value⟩ := n
    cases value with
    | sub B =>
      simp only [updTarget6M, updTarget6, mapT_node, ND.mapV, toTV, updSubA_erase]
      exact ⟨trivial, trivial⟩
    | user v => exact updDesc_map toTV (upd6A_tv cb) _ s

theorem wf_updTarget6M {k : Pair64} {P : List Bool} {t : NTree 64 (AV V)} (h : WF P t) (s : σ) :
    WF P (updTarget6M cb k t s).1 ∧ ((updTarget6M cb k t s).1 = .nil ↔ t = .nil) := by
  cases t with
  | nil => exact ⟨trivial, by simp [updTarget6M]⟩
  | node n l r =>
    simp only [updTarget6M]
    cases e : n.value with
    | user v => exact wf_updDesc h _ s
    | sub B => exact ⟨h, by simp⟩

/-- Nested trees seen from the `Node64` cells. -/
def NestOk (h : Heap (ND 64 (HV V))) : AV V → Prop
  | .user _ => True
  | .sub B => Rep h (mapA HV.user B) ∧ WF [] (erase B)

theorem nestOk_iff {h : Heap (IPD V)} {v : AV V} : NestOk (k64.view h) v ↔ SubOk h v := by cases v <;> exact Iff.rfl

theorem objs6 : Objs (X := AV V) (w := 64) subCnt NestOk where
  frame {h h' v} h1 hn hm := by
    cases v with
    | user v => trivial
    | sub B => exact ⟨rep_frame h1.1 hn fun a ha => hm a (by simpa [subCnt] using ha), h1.2⟩
  lt {h v a} h1 ha := by
    cases v with
    | user v => simp [subCnt] at ha
    | sub B => exact rep_lt h1.1 (by simpa [subCnt] using ha)

theorem subCnt_sub {B B' : ATree (ND 64 V)} (h : ∀ x, totX (fun _ _ => 0) x B' = totX (fun _ _ => 0) x B) (x : Addr) : subCnt x (.sub B') = subCnt x (.sub B) := by
  simpa [subCnt, totX0] using h x

theorem visit6_ok {f : Nat} (hf : 66 ≤ f) : Visit toHV subCnt NestOk (visit6 cb f) (upd6A cb) where
  own_eq x d s := by
    unfold upd6A
    cases e : d.value with
    | user v => rfl
    | sub B => exact subCnt_sub (updA_same (fun _ _ _ => rfl) B s).2 x
  run {h a d p q s} hlf ha hl hok h0 h1 := by
    obtain ⟨key, bits, leaf, value⟩ := d
    simp only [visit6, wp_bind, wp_load ha, mapV_value]
    cases value with
    | user v =>
      have e : toHV (.user v : AV V) = .user v := rfl
      simp only [e, upd6A]
      simp only [updateNode64P, wp_bind, wp_load ha, mapV_value, e]
      have e2 : (cb s (key6 (ND.mapV toHV (⟨key, bits, leaf, .user v⟩ : ND 64 (AV V)))) v) = cb s (key6 (⟨key, bits, leaf, .user v⟩ : ND 64 (AV V))) v := rfl
      rw [e2]
      unfold callBack
      split
      · simp only [wp_bind, wp_upd ha]
        exact ⟨.inl trivial, rfl, by simp [ND.mapV, toHV], trivial⟩
      · exact ⟨rfl, ha, trivial⟩
    | sub B =>
      have e : toHV (.sub B : AV V) = .sub (ptr B) := rfl
      simp only [e, mapV_key]
      simp only [upd6A]
      cases B with
      | nil => exact ⟨rfl, ha, hok⟩
      | node ad l r =>
        simp only [ptr_node, ifNotNil_some]
        have hB := wf_height hok.2
        simp only [subCnt] at h0 h1
        have kk := walkP_spec objs0 (updateNode64P_ok cb (key := key6s key) (key' := key6s key) fun _ => rfl) f (.node ad l r) (by omega) (h := h)
          (repX0.2 hok.1) (by simp) (by simpa only [totX0] using h1) s
        simp only [totX0] at kk
        refine wp_mono (fun x q => .inr (by simpa [subCnt] using q)) ?_ (wp_frame kk)
        rintro s' h' ⟨⟨rfl, q⟩, n1, m1⟩
        refine ⟨rfl, ?_, repX0.1 q, ?_⟩
        · rw [m1 a hl (by omega), ha]
          have := (updA_same (own := fun _ (_ : V) => 0) (F := fun m => callBack cb (key6s key m) m.value) (fun _ _ _ => rfl) (.node ad l r) s).1
          simp only [ND.mapV, toHV, this, ptr_node]
        · rw [(updA_erase _ _ s).1]; exact (wf_updWalk hok.2 _ s).1

theorem updSubA_same (k : Pair64) (B : ATree (ND 64 V)) (s : σ) : ptr (updSubA cb k B s).1 = ptr B ∧ ∀ x, cnt x (updSubA cb k B s).1 = cnt x B := by
  simp only [← totX0]
  cases B with
  | nil => exact ⟨rfl, fun _ => rfl⟩
  | node ad l r =>
    simp only [updSubA]
    split
    · exact updDescA_same (fun _ _ _ => rfl) _ s
    · exact updTargetA_same (fun t s => updDescA_same (fun _ _ _ => rfl) t s) _ _ _ s

theorem updTarget6A_same (k : Pair64) (P : ATree (ND 64 (AV V))) (s : σ) :
    ptr (updTarget6A cb k P s).1 = ptr P ∧ ∀ x, totX subCnt x (updTarget6A cb k P s).1 = totX subCnt x P := by
  cases P with
  | nil => exact ⟨rfl, fun _ => rfl⟩
  | node ad l r =>
    simp only [updTarget6A]
    cases e : ad.2.value with
    | sub B =>
      refine ⟨rfl, fun x => ?_⟩
      simp only [totX, subCnt, (updSubA_same cb k B s).2, e]
    | user v => exact updDescA_same (visit6_ok cb (f := 66) (by omega)).own_eq (.node ad l r) s

section
variable {f : Nat} (hf : 66 ≤ f)
include hf

/-- Finding the target in a whole tree. -/
theorem find_spec {w : Nat} {X W : Type} [KeySize w] {g : X → W} {own : Addr → X → Nat} {Ok : Heap (ND w W) → X → Prop} (O : Objs own Ok)
    {K : Ptr → Prog (ND w W) σ} {G : ATree (ND w X) → σ → ATree (ND w X) × σ} {s : σ}
    (hG : ∀ t s, ptr (G t s).1 = ptr t ∧ ∀ x, totX own x (G t s).1 = totX own x t)
    {key : BitVec w} {bits : Int} {Z : ND w X → Prop}
    (hK : ∀ (ad : Addr × ND w X) (l r : ATree (ND w X)) (h : Heap (ND w W)), ad.2.leaf = true → Z ad.2 → (BTree.node ad l r).height < 66 →
      RepX g Ok h (.node ad l r) → (∀ x, totX own x (.node ad l r) ≤ 1) →
      wp (fun x => 1 ≤ totX own x (.node ad l r)) (K (some ad.1)) (fun s' h' => s' = (G (.node ad l r) s).2 ∧ RepX g Ok h' (G (.node ad l r) s).1) h)
    (t : ATree (ND w X)) (hZ : ∀ m ∈ enumerate (erase t), Z m) (hh : t.height < 66) {h : Heap (ND w W)} (ht : RepX g Ok h t) (hc : ∀ x, totX own x t ≤ 1) :
    wp (fun x => 1 ≤ totX own x t) (do
        let target ← FindNodeP f (ptr t) key bits
        if target = none then pure s else K target)
      (fun s' h' => s' = (updTargetA G t key (clamp w bits) s).2 ∧ RepX g Ok h' (updTargetA G t key (clamp w bits) s).1) h := by
  cases t with
  | nil => exact ⟨rfl, trivial⟩
  | node ad l r =>
    have e : (do
        let target ← FindNodeP f (ptr (.node ad l r)) key bits
        if target = none then pure s else K target) = ((exactMatchP f (some ad.1) key (clamp w bits) >>= fun r => if r = none then pure none else pure r) >>=
            fun target => if target = none then pure s else K target) := rfl
    rw [e, wp_bind, wp_bind]
    have e2 : ∀ r : Ptr, (if r = none then pure none else pure r : Prog (ND w W) Ptr) = pure r := by
      intro r; cases r <;> rfl
    simp only [e2, wp_pure]
    rw [← wp_bind]
    exact target_spec O (K := fun target => if target = none then pure s else K target) hG rfl hK f (.node ad l r) hZ (by omega) hh ht (by simp) hc

/-- The target in a nested tree. -/
theorem nested_spec {k : Pair64} (hk : k.Ok) {B : ATree (ND 64 V)} (hne : B ≠ .nil) {h : Heap (ND 64 (HV V))} (hB : Rep h (mapA HV.user B)) (hw : WF [] (erase B))
    (hc : ∀ x, cnt x B ≤ 1) (s : σ) :
    wp (fun x => 1 ≤ cnt x B) (do
      let sc ← load (ptr B)
      let target ← if sc.d.key = k.lsKey ∧ (sc.d.bits : Int) = k.lsBits then pure (ptr B) else FindNodeP f (ptr B) k.lsKey k.lsBits
      if target = none then pure s else descP (updateNode64P cb (key6s k.msKey)) f target s)
      (fun s' h' => s' = (updSubA cb k B s).2 ∧ Rep h' (mapA HV.user (updSubA cb k B s).1)) h := by
  have hh := wf_height hw
  have ho := updateNode64P_ok cb (key := key6s k.msKey) (key' := key6s k.msKey) fun _ => rfl
  cases B with
  | nil => exact absurd rfl hne
  | node ad l r =>
    have d := fun (u : ATree (ND 64 V)) (h : Heap (ND 64 (HV V))) (q1 : u ≠ .nil) (q2 : u.height < 66) (q3 : RepX HV.user (fun _ _ => True) h u) (q4 : ∀ x, totX (fun _ _ => 0) x u ≤ 1) =>
      descP_spec objs0 ho (f := f) (t := u) (by omega) q3 q1 q4 s
    have h1 : h.mem ad.1 = _ := hB.1
    simp only [ptr_node, wp_bind, wp_load h1, mapV_key, mapV_bits, updSubA, Int.ofNat_inj]
    by_cases c : ad.2.key = k.lsKey ∧ ad.2.bits = k.lsBits
    · simp only [c, if_true, and_self]
      have := d (.node ad l r) h (by simp) (by omega) (repX0.2 hB) (by simpa only [totX0] using hc)
      simp only [totX0, repX0] at this
      exact this
    · simp only [c, if_false]
      have cl : clamp 64 (k.lsBits : Int) = k.lsBits := by
        have := hk.ls
        unfold clamp; split
        · omega
        · split <;> omega
      have kk := find_spec hf objs0 (K := fun target => descP (updateNode64P cb (key6s k.msKey)) f target s)
        (G := updDescA fun (m : ND 64 V) => callBack cb (key6s k.msKey m) m.value) (s := s) (g := HV.user) (own := fun _ (_ : V) => 0) (Ok := fun _ _ => True)
        (fun t s => updDescA_same (fun _ _ _ => rfl) t s) (key := k.lsKey) (bits := k.lsBits) (Z := fun _ => True)
        (fun ad l r h _ _ q2 q3 q4 => d (.node ad l r) h (by simp) q2 q3 q4) (.node ad l r) (fun _ _ => trivial) (by omega) (h := h)
        (repX0.2 hB) (by simpa only [totX0] using hc)
      simp only [totX0, repX0, ptr_node, cl] at kk
      exact kk

theorem target6P_spec {k : Pair64} (hk : k.Ok) (ad : Addr × ND 64 (AV V)) (l r : ATree (ND 64 (AV V))) (h : Heap (ND 64 (HV V)))
    (hne : ∀ B, ad.2.value = .sub B → B ≠ .nil) (hh : (BTree.node ad l r).height < 66) (hP : RepX toHV NestOk h (.node ad l r))
    (hc : ∀ x, totX subCnt x (.node ad l r) ≤ 1) (s : σ) :
    wp (fun x => 1 ≤ totX subCnt x (.node ad l r)) (target6P cb f k (some ad.1) s)
      (fun s' h' => s' = (updTarget6A cb k (.node ad l r) s).2 ∧ RepX toHV NestOk h' (updTarget6A cb k (.node ad l r) s).1) h := by
  obtain ⟨a, key, bits, leaf, value⟩ := ad
  obtain ⟨h1, h2, h3, h4, h5⟩ := id hP
  simp only at h1 h2 h3
  simp only [target6P, wp_bind, wp_load h1, mapV_value]
  cases value with
  | user v =>
    exact descP_spec objs6 (visit6_ok cb hf) (t := .node (a, ⟨key, bits, leaf, .user v⟩) l r) (by omega) hP (by simp) hc s
  | sub B =>
    have hB := hne B rfl
    have e : toHV (.sub B : AV V) = .sub (ptr B) := rfl
    simp only [e, updTarget6A]
    simp only [totX, subCnt] at hc
    have ca : cnt a B = 0 := by have := hc a; simp only [if_true] at this; omega
    refine wp_mono (fun x q => ?_) ?_ (wp_frame (nested_spec cb hf hk hB h3.1 h3.2 (fun x => by have := hc x; omega) s))
    · simp only [totX, subCnt]; omega
    rintro s' h' ⟨⟨rfl, q⟩, n1, m1⟩
    refine ⟨rfl, ?_, by simp only; omega, ⟨q, ?_⟩, ?_, ?_⟩
    · rw [m1 a h2 (by omega), h1]
      simp only [ND.mapV, toHV, (updSubA_same cb k B s).1]
    · rw [(updSubA_erase cb k B s).1]; exact (wf_updSub cb h3.2 s).1
    · refine h4.frame objs6 n1 fun b hb => m1 b (h4.lt objs6 hb) ?_
      have := hc b; omega
    · refine h5.frame objs6 n1 fun b hb => m1 b (h5.lt objs6 hb) ?_
      have := hc b; omega

theorem UpdateDescendantsP_spec {h : Heap (IPD V)} {a : Addr} {t : Tree V} {t' : Option (Tree V)} {F : Addr → Prop} (hT : TRep h (some a) (some t) F) (hw : WFT t)
    {n : Option IPNet} {s s' : σ} (hu : UpdateDescendants cb (some t) n s = some (t', s')) :
    wp (fun x => F x ∧ x ≠ a) (UpdateDescendantsP f cb (some a) n s) (fun r h' => r = s' ∧ TRep h' (some a) t' F) h := by
  have hT0 := hT
  obtain ⟨a', A, P, ea, hm, hl, hA, hP, ht, hF⟩ := hT
  cases ea
  have za : cnt a A = 0 := by
    refine Nat.eq_zero_of_not_pos fun q => ?_
    obtain ⟨d, x, y, e⟩ := cell32 hA.1 (a := a) q
    rw [e] at hm; cases hm
  have zp : tot a P = 0 := by
    refine Nat.eq_zero_of_not_pos fun q => ?_
    obtain ⟨d, x, y, e⟩ := hP.1.cell (a := a) q
    rw [e] at hm; cases hm
  have zap : ∀ x, 1 ≤ cnt x A → tot x P = 0 := fun x q => by
    refine Nat.eq_zero_of_not_pos fun q' => ?_
    obtain ⟨d, u, v, e⟩ := cell32 hA.1 q
    obtain ⟨d', u', v', e'⟩ := hP.1.cell (a := x) q'
    rw [e] at e'; cases e'
  cases n with
  | none => simp [UpdateDescendants] at hu
  | some n =>
    simp only [UpdateDescendants, ht] at hu
    unfold UpdateDescendantsP
    cases e4 : v4Key n with
    | some kb =>
      obtain ⟨key, bits⟩ := kb
      simp only [e4, Option.some.injEq, Prod.mk.injEq] at hu ⊢
      obtain ⟨rfl, rfl⟩ := hu
      rw [wp_bind, wp_rootsP hm]
      have hh := wf_height hA.2.1
      have kk := find_spec hf objs0 (K := fun target => descP (visit4 cb) f target s) (G := updDescA fun (m : ND 32 V) => callBack cb (key4 m) m.value) (s := s)
        (g := fun x => x) (own := fun _ (_ : V) => 0) (Ok := fun _ _ => True)
        (fun t s => updDescA_same (fun _ _ _ => rfl) t s) (key := key) (bits := bits) (Z := fun _ => True)
        (fun ad l r h _ _ q2 q3 q4 => descP_spec objs0 (visit4_ok cb) (t := .node ad l r) (by omega) q3 (by simp) q4 s) A (fun _ _ => trivial) (by omega) (h := k32.view h)
        (repX0.2 (by rw [mapA_id]; exact hA.1)) (by simpa only [totX0] using hA.2.2)
      simp only [totX0, repX0, mapA_id] at kk
      refine wp_mono (fun x q => ⟨(hF x).2 (.inr (.inl q)), by rintro rfl; omega⟩) ?_ (on_spec k32 kk)
      rintro r h' ⟨⟨rfl, q⟩, n1, m1⟩
      have se := updTargetA_erase (fun t s => updDescA_erase (fun (m : ND 32 V) => callBack cb (key4 m) m.value) t s) A key (clamp 32 bits) s
      have ss := updTargetA_same (own := fun _ (_ : V) => 0) (fun t s => updDescA_same (F := fun (m : ND 32 V) => callBack cb (key4 m) m.value) (fun _ _ _ => rfl) t s) A key (clamp 32 bits) s
      simp only [totX0] at ss
      refine ⟨se.2, a, _, P, rfl, ?_, by omega, ⟨q, ?_, fun x => by rw [ss.2]; exact hA.2.2 x⟩, ⟨hP.1.frame n1 fun b hb => m1 b (hP.1.lt hb) fun q => ?_, hP.2⟩, ?_, ?_⟩
      · rw [ss.1, m1 a hl (by omega), hm]
      · rw [se.1]; exact (wf_updTarget hA.2.1 (fun P t s ht => wf_updDesc ht _ s) _ _ s).1
      · have := zap b q; omega
      · rw [se.1]
      · intro x; rw [ss.2]; exact hF x
    | none =>
      simp only [e4] at hu ⊢
      cases e6 : v6Pair n with
      | none =>
        simp only [e6, Option.some.injEq, Prod.mk.injEq] at hu ⊢
        obtain ⟨rfl, rfl⟩ := hu
        rw [← ht]
        exact ⟨rfl, hT0⟩
      | some k =>
        have hk := (v6Pair_some e6).1
        simp only [e6, Option.some.injEq, Prod.mk.injEq] at hu ⊢
        obtain ⟨rfl, rfl⟩ := hu
        rw [wp_bind, wp_rootsP hm]
        have hh := wf_height hP.1.wf
        have hne : ∀ m ∈ enumerate (erase P), ∀ B, m.value = .sub B → B ≠ .nil := by
          intro m hm B e
          have w6 := (wf6_iff.1 hw.v6).2 (m.mapV toTV) (by
            rw [ht]; show _ ∈ enumerate (mapT toTV (erase P))
            rw [enumerate_map]; exact List.mem_map.2 ⟨m, hm, rfl⟩)
          rcases w6 with ⟨_, u, e'⟩ | ⟨_, u, e', hu, _⟩
          · simp [e, toTV] at e'
          · simp only [mapV_value, e, toTV, TV.sub.injEq] at e'
            rintro rfl; exact hu e'.symm
        have key := find_spec hf objs6 (K := fun target => target6P cb f k target s) (G := updTarget6A cb k) (s := s) (g := toHV)
          (updTarget6A_same cb k) (key := k.msKey) (bits := k.msBits) (Z := fun m => ∀ B, m.value = .sub B → B ≠ .nil)
          (fun ad l r h _ q1 q2 q3 q4 => target6P_spec cb hf hk ad l r h q1 q2 q3 q4 s) P hne (by omega) (h := k64.view h)
          ((repX_iff _ _).2 ⟨hP.1.rep, fun v hv => nestOk_iff.2 (hP.1.sub v hv)⟩) (fun x => by rw [totX_eq]; exact hP.2 x)
        have tq : ∀ x, totX subCnt x P = tot x P := fun x => totX_eq _ _ _
        simp only [tq] at key
        refine wp_mono (fun x q => ⟨(hF x).2 (.inr (.inr q)), by rintro rfl; omega⟩) ?_ (on_spec k64 key)
        rintro r h' ⟨⟨rfl, q⟩, n1, m1⟩
        have se := updTargetA_erase (updTarget6A_erase cb k) P k.msKey (clamp 64 k.msBits) s
        have sm := updTarget_map toTV (updTarget6M_tv cb k) (erase P) k.msKey (clamp 64 k.msBits) s
        have ss := updTargetA_same (updTarget6A_same cb k) P k.msKey (clamp 64 k.msBits) s
        have q := (repX_iff _ _).1 q
        refine ⟨se.2.trans sm.2, a, A, _, rfl, ?_, by omega, ⟨rep_frame hA.1 n1 fun b hb => k32.view_frame (m1 b (rep_lt hA.1 hb) fun q => ?_), hA.2⟩,
          ⟨⟨q.1, fun v hv => nestOk_iff.1 (q.2 v hv), ?_⟩, fun x => ?_⟩, ?_, ?_⟩
        · rw [ss.1, m1 a hl (by omega), hm]
        · have := zap b hb; omega
        · rw [se.1]; exact (wf_updTarget hP.1.wf (fun P t s ht => wf_updTarget6M cb ht s) _ _ s).1
        · have e := ss.2 x; have := hP.2 x; rw [totX_eq, tq] at e; show cnt x _ + sumV _ _ ≤ 1; omega
        · rw [se.1, sm.1]
        · intro x; have := ss.2 x; rw [totX_eq, tq] at this; rw [hF x]; unfold tot at this ⊢; rw [this]

end
end Verif.IPHeap
