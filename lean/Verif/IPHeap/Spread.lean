import Verif.IPHeap.Homes

/-!
# What an in-place insertion into one iptree does to the other trees that share nodes with it

The call writes at most one node that existed before, and this node keeps its place: another tree that contains it contains it at the
same place and receives the same insertion, every other tree stays as it is.
-/

namespace Verif.IPHeap
open Verif Verif.Heap Verif.Heap.Prog Verif.Heap.ATree Verif.Num Verif.NumHeap Verif.IP

section
variable {w : Nat} {W E : Type} [LawfulKeySize w] [Inhabited W] (K : Kind (ND w W) E)

/-- The only node that was there and was written is `c`, in `Q`, which received the insertion of `new`. -/
def HitAt (Q : ATree (ND w W)) (new : ND w W) (h h' : Heap E) (c : Addr) : Prop :=
  ∃ d l r S', 1 ≤ cnt c Q ∧ Rep (K.view h) (.node (c, d) l r) ∧ ptr S' = some c ∧ Rep (K.view h') S' ∧ erase S' = Num.insert (.node d (erase l) (erase r)) new ∧
    ¬ ncsb d.key d.bits new.key new.bits < d.bits ∧ (∀ x, x < h.next → x ≠ c → h'.mem x = h.mem x) ∧
    ∀ x, cnt x S' ≤ if h.next ≤ x then 1 else cnt x (.node (c, d) l r : ATree (ND w W))

omit [LawfulKeySize w] [Inhabited W] in
theorem unview {h h' : Heap E} {a : Addr} {c : Cell (ND w W)} (h1 : (K.view h).mem a = some c) (h2 : (K.view h').mem a = (K.view h).mem a) : h'.mem a = h.mem a := by
  rw [h1] at h2
  rw [K.view_mem.1 h1, K.view_mem.1 h2]

theorem chg_spec {f : Nat} {Q : ATree (ND w W)} {h : Heap E} (hQ : Rep (K.view h) Q) (hc : ∀ x, cnt x Q ≤ 1) (hf : Q.height < f) (k : BitVec w) (b : Int) (v : W) :
    wp (fun a => 1 ≤ cnt a Q ∨ h.next ≤ a) ((InplaceInsertP f (ptr Q) k b v).lift K) (fun x h' =>
      ((∀ a, a < h.next → h'.mem a = h.mem a) ∨ (x = ptr Q ∧ ∃ c, HitAt K Q ⟨k, clamp w b, true, v⟩ h h' c))) h := by
  have h1 := InplaceInsertP_spec hf hQ hc k b v
  have h2 := inplaceLoop_change f k (clamp w b) v Q Q hf (ptr Q) none false (K.view h) hQ hc (fun _ => Nat.le_refl _) (.inl rfl)
  refine wp_conseq (on_spec K (wp_and h1 h2)) ?_
  rintro x h' ⟨⟨_, h3, h4⟩, h5, h6⟩
  have hcell : ∀ a, 1 ≤ cnt a Q → (K.view h').mem a = (K.view h).mem a → h'.mem a = h.mem a := fun a ha e => by
    obtain ⟨c, hc⟩ := rep_cell hQ ha
    exact unview K hc e
  have hsame : Same (K.view h) (K.view h') → ∀ a, a < h.next → h'.mem a = h.mem a := fun hs a ha => by
    by_cases q : 1 ≤ cnt a Q
    · exact hcell a q (hs a ha)
    · refine h6 a ha ?_
      rintro (z | z)
      · exact q z
      · omega
  rcases h3 with hs | ⟨c, d, l, r, S', g1, g2, g3, g4, g5, g6, g7, g8⟩
  · exact .inl (hsame hs)
  · rcases h4 with rfl | hs
    · refine .inr ⟨rfl, c, d, l, r, S', g1, g2, g3, g4, g5, g6, fun a ha hne => ?_, g8⟩
      by_cases q : 1 ≤ cnt a Q
      · exact hcell a q (g7 a ha hne)
      · refine h6 a ha ?_
        rintro (z | z)
        · exact q z
        · omega
    · exact .inl (hsame hs)

variable {K}

omit [LawfulKeySize w] [Inhabited W] in
theorem hit_bits {h : Heap (ND w W)} {c : Addr} {d : ND w W} {l r : ATree (ND w W)} (hS : Rep h (.node (c, d) l r)) (B : ATree (ND w W)) (P : List Bool) (hB : Rep h B)
    (hw : WF P (erase B)) (hx : 1 ≤ cnt c B) : d.bits ≤ w := by
  induction B generalizing P with
  | nil => simp at hx
  | node ad lt rt ihl ihr =>
    obtain ⟨a, e⟩ := ad
    obtain ⟨g1, g2, g3, g4⟩ := id hB
    obtain ⟨w1, w2, _, w3, w4⟩ := id hw
    by_cases hac : a = c
    · have := rep_unique hB hS (by simp [hac])
      injection this with q1 q2 q3
      injection q1 with q1 q4
      subst q4
      exact w1
    · simp only [cnt_node, hac, if_false] at hx
      by_cases hl : 1 ≤ cnt c lt
      · exact ihl _ g3 w3 hl
      · exact ihr _ g4 w4 (by omega)

/-- Another tree with the node receives the insertion, and held the same for the key. -/
theorem HitAt.other {Q B : ATree (ND w W)} {new : ND w W} {h h' : Heap E} {c : Addr} (hH : HitAt K Q new h h' c) (hnb : new.bits ≤ w) (hn : h.next ≤ h'.next)
    (hQ : Rep (K.view h) Q) (hQw : WF [] (erase Q)) (hB : Rep (K.view h) B) (hw : WF [] (erase B)) (hc : ∀ x, cnt x B ≤ 1) (hx : 1 ≤ cnt c B) :
    ∃ B', ptr B' = ptr B ∧ Rep (K.view h') B' ∧ (∀ x, cnt x B' ≤ if h.next ≤ x then 1 else cnt x B) ∧ erase B' = Num.insert (erase B) new ∧
      den (erase B) new.sig = den (erase Q) new.sig := by
  obtain ⟨d, l, r, S', g1, g2, g3, g4, g5, g6, g7, g8⟩ := hH
  obtain ⟨B', q1, q2, q3, q4, _⟩ := other_hit hnb (h := K.view h) (h' := K.view h') hn g2 g3 g4 g5 g6 (fun x h1 h2 => K.view_frame (g7 x h1 h2)) g8 B [] hB hw hc hx
  have hd : d.bits ≤ w := hit_bits g2 B [] hB hw hx
  have hp := prefix_of_ncsb hd hnb g6
  refine ⟨B', q1, q2, q3, q4, ?_⟩
  rw [(den_local g2 hp B [] hB hw hx).1, (den_local g2 hp Q [] hQ hQw g1).1]

end

variable {V : Type}

theorem mapA_inj {w : Nat} {V W : Type} {g : V → W} (hg : ∀ x y, g x = g y → x = y) {A B : ATree (ND w V)} (h : mapA g A = mapA g B) : A = B := by
  induction A generalizing B with
  | nil => cases B <;> simp [mapA] at h ⊢
  | node a l r ihl ihr =>
    cases B with
    | nil => simp [mapA] at h
    | node b l' r' =>
      obtain ⟨a1, k1, b1, l1, v1⟩ := a
      obtain ⟨a2, k2, b2, l2, v2⟩ := b
      simp only [mapA, BTree.map, BTree.node.injEq, ND.mapV, Prod.mk.injEq, ND.mk.injEq] at h
      obtain ⟨⟨rfl, rfl, rfl, rfl, e⟩, e1, e2⟩ := h
      rw [hg _ _ e, ihl e1, ihr e2]

theorem sub_unique {h : Heap (IPD V)} {A B : ATree (ND 64 V)} (hA : Sub h A) (hB : Sub h B) (hp : ptr A = ptr B) : A = B :=
  mapA_inj (g := HV.user) (fun x y e => by cases e; rfl) (rep_unique hA.1 hB.1 (by simpa using hp))

theorem subOk_unique {h : Heap (IPD V)} {u v : AV V} (hu : SubOk h u) (hv : SubOk h v) (e : toHV u = toHV v) : u = v := by
  cases u <;> cases v <;> simp only [toHV, HV.user.injEq, HV.sub.injEq, reduceCtorEq] at e
  · rw [e]
  · rw [sub_unique hu hv e]

theorem rep6_unique {h : Heap (IPD V)} {P P2 : ATree (ND 64 (AV V))} (hP : Rep6 h P) (hP2 : Rep6 h P2) (hp : ptr P = ptr P2) : P = P2 := by
  have e := rep_unique hP.rep hP2.rep (by simpa using hp)
  have h1 := hP.sub
  have h2 := hP2.sub
  clear hP hP2 hp
  induction P generalizing P2 with
  | nil => cases P2 <;> simp [mapA] at e ⊢
  | node a l r ihl ihr =>
    cases P2 with
    | nil => simp [mapA] at e
    | node b l' r' =>
      obtain ⟨a1, k1, b1, l1, v1⟩ := a
      obtain ⟨a2, k2, b2, l2, v2⟩ := b
      simp only [mapA, BTree.map, BTree.node.injEq, ND.mapV, Prod.mk.injEq, ND.mk.injEq] at e
      obtain ⟨⟨rfl, rfl, rfl, rfl, e⟩, e1, e2⟩ := e
      simp only [erase_node, vals, List.mem_cons, List.mem_append] at h1 h2
      rw [subOk_unique (h1 v1 (.inl rfl)) (h2 v2 (.inl rfl)) e, ihl e1 (fun v hv => h1 v (.inr (.inl hv))) (fun v hv => h2 v (.inr (.inl hv))),
        ihr e2 (fun v hv => h1 v (.inr (.inr hv))) (fun v hv => h2 v (.inr (.inr hv)))]

/-- Nodes of nested trees are not nodes of `root64`. -/
theorem Homed.nested {home : Addr → Option (BitVec 64)} {P : ATree (ND 64 (AV V))} (hH : Homed home P) {u : AV V} (hu : u ∈ vals (erase P)) {x : Addr} (hx : 1 ≤ subCnt x u) :
    ∃ n ∈ nodes (erase P), ∃ B, n.value = .sub B ∧ n.bits = 64 ∧ 1 ≤ cnt x B ∧ home x = some n.key := by
  rw [vals_nodes, List.mem_map] at hu
  obtain ⟨n, hn, rfl⟩ := hu
  cases e : n.value with
  | user z => rw [e] at hx; simp [subCnt] at hx
  | sub B =>
    rw [e] at hx
    obtain ⟨q1, q2⟩ := hH.2 n hn B e
    exact ⟨n, hn, B, e, q1, hx, q2 x hx⟩

theorem tot_split {P : ATree (ND 64 (AV V))} {x : Addr} (hx : 1 ≤ tot x P) : 1 ≤ cnt x P ∨ ∃ u ∈ vals (erase P), 1 ≤ subCnt x u := by
  by_cases q : 1 ≤ cnt x P
  · exact .inl q
  · unfold tot at hx
    have : 1 ≤ sumV (subCnt x) (erase P) := by omega
    rw [sumV_vals] at this
    exact .inr (sum_pos this)

theorem oldV_of {t : NTree 64 (AV V)} {k : BitVec 64} {b : Int} {B : ATree (ND 64 V)} (e : Num.ExactMatch t k b = some (.sub B)) (x : Addr) :
    oldV (subCnt x) t k (clamp 64 b) = cnt x B := by
  unfold Num.ExactMatch Num.FindNode at e
  unfold oldV
  cases e' : exactMatch t k (clamp 64 b) with
  | nil => simp [e'] at e
  | node n l r => simp [e'] at e; simp [e, subCnt]

section
variable [Inhabited V]

/-- What a write to a node of `root64` does to another `root64`. -/
theorem top_other {home : Addr → Option (BitVec 64)} {h h' : Heap (IPD V)} {P P2 : ATree (ND 64 (AV V))} {k : BitVec 64} {b : Int} {v : AV V} (hn : h.next ≤ h'.next)
    (hP : Rep (k64.view h) (mapA toHV P)) (hw : WF [] (erase P)) (hH : ∀ x, 1 ≤ cnt x P → home x = none) (hR : Root6 home h P2)
    (hC : (∀ a, a < h.next → h'.mem a = h.mem a) ∨ ∃ c, HitAt k64 (mapA toHV P) ⟨k, clamp 64 b, true, toHV v⟩ h h' c) (hv : SubOk h' v) :
    (∀ x, 1 ≤ tot x P2 → h'.mem x = h.mem x) ∨ ∃ P2', ptr P2' = ptr P2 ∧ Rep6 h' P2' ∧ erase P2' = Num.Insert (erase P2) k b v ∧
      (∀ x, cnt x P2' ≤ if h.next ≤ x then 1 else cnt x P2) ∧ (Num.ExactMatch (erase P2) k b).map toHV = (Num.ExactMatch (erase P) k b).map toHV := by
  rcases hC with hs | ⟨c, hc⟩
  · exact .inl fun x hx => hs x (hR.rep.lt hx)
  · have hcP : 1 ≤ cnt c P := by obtain ⟨_, _, _, _, q, _⟩ := hc; simpa using q
    have hcm : ∀ x, x < h.next → x ≠ c → h'.mem x = h.mem x := by obtain ⟨_, _, _, _, _, _, _, _, _, _, q, _⟩ := hc; exact q
    have hnest : ∀ u ∈ vals (erase P2), ∀ x, 1 ≤ subCnt x u → h'.mem x = h.mem x := fun u hu x hx => by
      obtain ⟨n, _, B, _, _, _, q⟩ := hR.homed.nested hu hx
      refine hcm x (Nat.not_le.1 fun z => ?_) ?_
      · have := (hR.rep.sub u hu).zero z; omega
      · rintro rfl
        rw [hH x hcP] at q; cases q
    by_cases hc2 : 1 ≤ cnt c P2
    · obtain ⟨B', q1, q2, q3, q4, q5⟩ := hc.other (clamp_le b) hn hP (by rw [erase_mapA, wf_map]; exact hw) hR.rep.rep
        (by rw [erase_mapA, wf_map]; exact hR.rep.wf) (fun x => by have := hR.one x; unfold tot at this; simp; omega) (by simpa using hc2)
      rw [erase_mapA] at q4
      obtain ⟨P2', p1, p2⟩ := mapA_split toHV B' (Num.Insert (erase P2) k b v) (q4.trans (Insert_map toHV rfl _ k b v))
      subst p2
      refine .inr ⟨P2', by simpa using q1, ⟨q2, fun u hu => ?_, ?_⟩, p1, by simpa using q3, ?_⟩
      · rw [p1] at hu
        rcases vals_insert _ _ u hu with rfl | rfl | q
        · exact hv
        · trivial
        · exact (hR.rep.sub u q).frame hn (hnest u q)
      · rw [p1]; exact insert_wf' hR.rep.wf _ _ _
      · rw [← ExactMatch_map, ← ExactMatch_map, exactMatch_eq_den ((wf_map ..).2 hR.rep.wf), exactMatch_eq_den ((wf_map ..).2 hw)]
        rw [erase_mapA, erase_mapA] at q5
        exact q5
    · refine .inl fun x hx => ?_
      rcases tot_split hx with q | ⟨u, hu, q⟩
      · exact hcm x (hR.rep.lt hx) (by rintro rfl; exact hc2 q)
      · exact hnest u hu x q

/-- The tree nested under a key was changed in place, at the same pointer. -/
theorem nested_root {home : Addr → Option (BitVec 64)} {h h1 : Heap (IPD V)} {P : ATree (ND 64 (AV V))} {k : BitVec 64} {b : Int} {B B' : ATree (ND 64 V)} (hP : Root6 home h P)
    (hb : clamp 64 b = 64) (eB : Num.ExactMatch (erase P) k b = some (.sub B)) (hB' : Sub h1 B') (hp : ptr B' = ptr B)
    (cB : ∀ x, cnt x B' ≤ if h.next ≤ x then 1 else cnt x B) (kn : h.next ≤ h1.next) (km : ∀ a, a < h.next → cnt a B = 0 → h1.mem a = h.mem a) :
    ∃ P', ptr P' = ptr P ∧ erase P' = Num.Insert (erase P) k b (.sub B') ∧ Root6 (fun x => if x < h.next then home x else some k) h1 P' ∧
      ∀ x, 1 ≤ tot x P' → h.next ≤ x ∨ 1 ≤ tot x P := by
  obtain ⟨r1, r2, r3⟩ := resub_vals hP.rep hP.one eB hB' cB kn km
  obtain ⟨nd, xx, yy, e1, e2⟩ : ∃ n x y, exactMatch (erase P) k 64 = .node n x y ∧ n.value = .sub B := by
    have eB := eB
    unfold Num.ExactMatch Num.FindNode at eB
    rw [hb] at eB
    cases e' : exactMatch (erase P) k 64 with
    | nil => simp [e'] at eB
    | node n l r => simp [e'] at eB; exact ⟨n, l, r, rfl, eB⟩
  have same : mapT toHV (Num.Insert (erase P) k b (.sub B')) = mapT toHV (erase P) := by
    rw [← Insert_map toHV rfl]
    have q := insert_same (t := mapT toHV (erase P)) (P := []) ((wf_map toHV [] _).2 hP.rep.wf) (k := k) (n := nd.mapV toHV) (x := mapT toHV xx) (y := mapT toHV yy)
      (by rw [exactMatch_map, e1]; rfl)
    have e3 : toHV (AV.sub B') = (nd.mapV toHV).value := by simp only [ND.mapV, e2, toHV, hp]
    unfold Num.Insert
    rw [hb, e3]; exact q
  obtain ⟨P', p1, p2⟩ := mapA_split toHV (mapA toHV P) (Num.Insert (erase P) k b (.sub B')) (by rw [erase_mapA, same])
  have pc : ∀ x, cnt x P' = cnt x P := fun x => by have := congrArg (cnt x) p2; simpa using this
  have pp : ptr P' = ptr P := by have := congrArg ptr p2; simpa using this
  have hT : ∀ x, tot x P' ≤ if h.next ≤ x then 1 else tot x P := fun x => by unfold tot; rw [pc, p1]; exact r3 x
  refine ⟨P', pp, p1, ⟨⟨by rw [p2]; exact r1, fun u hu => (r2 u (p1 ▸ hu)).1, by rw [p1]; exact insert_wf' hP.rep.wf _ _ _⟩, fun x => ?_, fun x hx => ?_, fun n hmem C hC => ?_⟩,
    fun x hx => by have := hT x; grind⟩
  · have := hT x; have := hP.one x; grind
  · rw [pc] at hx
    show (if x < h.next then home x else some k) = none
    rw [if_pos (hP.rep.lt (by unfold tot; omega)), hP.homed.1 x hx]
  · rw [p1] at hmem
    show n.bits = 64 ∧ ∀ x, 1 ≤ cnt x C → (if x < h.next then home x else some k) = some n.key
    rcases nodes_insert _ _ n hmem with rfl | e | q
    · cases hC
      refine ⟨hb, fun x hx => ?_⟩
      split
      · rename_i q
        have q1 : 1 ≤ cnt x B := by have := cB x; rw [if_neg (by omega)] at this; omega
        obtain ⟨n, hn, e1, e2⟩ := node_of_exactMatch hP.rep.wf hb eB
        exact e1 ▸ (hP.homed.2 n hn B e2).2 x q1
      · rfl
    · rw [e] at hC; cases hC
    · obtain ⟨q1, q2⟩ := hP.homed.2 n q C hC
      refine ⟨q1, fun x hx => ?_⟩
      rw [if_pos (hP.rep.lt (by have := sub_lt_tot q hC x; omega)), q2 x hx]

/-- What a write to a node of a nested tree does to another `root64`. -/
theorem nested_other {home : Addr → Option (BitVec 64)} {h h' : Heap (IPD V)} {P P2 : ATree (ND 64 (AV V))} {k : BitVec 64} {b : Int} {B : ATree (ND 64 V)} {ls : BitVec 64} {lb : Int} {v : V}
    (hn : h.next ≤ h'.next) (hP : Root6 home h P) (hb : clamp 64 b = 64) (eB : Num.ExactMatch (erase P) k b = some (.sub B)) (hR : Root6 home h P2)
    (hC : (∀ a, a < h.next → h'.mem a = h.mem a) ∨ ∃ c, HitAt k64 (mapA HV.user B) ⟨ls, clamp 64 lb, true, .user v⟩ h h' c) :
    (∀ x, 1 ≤ tot x P2 → h'.mem x = h.mem x) ∨ ∃ B2 B2' P2', Num.ExactMatch (erase P2) k b = some (.sub B2) ∧ erase B2' = Num.Insert (erase B2) ls lb v ∧
      ptr P2' = ptr P2 ∧ erase P2' = Num.Insert (erase P2) k b (.sub B2') ∧ Root6 (fun x => if x < h.next then home x else some k) h' P2' ∧
      ∀ x, 1 ≤ tot x P2' → h.next ≤ x ∨ 1 ≤ tot x P2 := by
  rcases hC with hs | ⟨c, hc⟩
  · exact .inl fun x hx => hs x (hR.rep.lt hx)
  · have hcB : 1 ≤ cnt c B := by obtain ⟨_, _, _, _, q, _⟩ := hc; simpa using q
    have hcm : ∀ x, x < h.next → x ≠ c → h'.mem x = h.mem x := by obtain ⟨_, _, _, _, _, _, _, _, _, _, q, _⟩ := hc; exact q
    have hk : home c = some k := by
      obtain ⟨n, hn, e1, e2⟩ := node_of_exactMatch hP.rep.wf hb eB
      exact e1 ▸ (hP.homed.2 n hn B e2).2 c hcB
    by_cases hc2 : 1 ≤ tot c P2
    · rcases tot_split hc2 with q | ⟨u, hu, q⟩
      · rw [hR.homed.1 c q] at hk; cases hk
      · obtain ⟨n, hn2, B2, eV, e64, q1, q2⟩ := hR.homed.nested hu q
        rw [hk] at q2
        have ek : k = n.key := by simpa using q2
        have eB2 : Num.ExactMatch (erase P2) k b = some (.sub B2) := by rw [ek, ← eV]; exact exactMatch_of_node hR.rep.wf hn2 e64 hb
        have mB := vals_ExactMatch eB
        have mB2 := vals_ExactMatch eB2
        have hB : Sub h B := hP.rep.sub _ mB
        have hB2 : Sub h B2 := hR.rep.sub _ mB2
        obtain ⟨C, c1, c2, c3, c4, _⟩ := hc.other (clamp_le lb) hn hB.1 (by rw [erase_mapA, wf_map]; exact hB.2) hB2.1 (by rw [erase_mapA, wf_map]; exact hB2.2)
          (fun x => by have := hR.one x; have := cntSub_le_tot mB2 x; simp; omega) (by simpa using q1)
        rw [erase_mapA] at c4
        obtain ⟨B2', p1, p2⟩ := mapA_split HV.user C (Num.Insert (erase B2) ls lb v) (c4.trans (Insert_map HV.user rfl _ ls lb v))
        subst p2
        obtain ⟨P2', z1, z2, z3⟩ := nested_root hR hb eB2 (B' := B2') ⟨c2, by rw [p1]; exact insert_wf' hB2.2 _ _ _⟩ (by simpa using c1) (by simpa using c3) hn
          (fun a ha hz => hcm a ha (by rintro rfl; omega))
        exact .inr ⟨B2, B2', P2', eB2, p1, z1, z2, z3⟩
    · exact .inl fun x hx => hcm x (hR.rep.lt hx) (by rintro rfl; exact hc2 hx)

omit [Inhabited V] in
/-- The trees of an object, with its cells. -/
theorem HRep.foot {home : Addr → Option (BitVec 64)} {h : Heap (IPD V)} {r : Ptr} {t : Tree V} {F : Addr → Prop} (hT : HRep home h r (some t)) (hF : TRep h r (some t) F) :
    ∃ a A P, r = some a ∧ h.mem a = some ⟨.tree, ptr A, ptr P⟩ ∧ a < h.next ∧ Root4 h A ∧ Root6 home h P ∧ t = ⟨erase A, mapT toTV (erase P)⟩ ∧
      ∀ x, F x ↔ x = a ∨ 1 ≤ cnt x A ∨ 1 ≤ tot x P := by
  obtain ⟨a, A, P, rfl, h1, h2, h3, h4, h5⟩ := hT
  obtain ⟨a', A', P', e, g1, g2, g3, g4, g5, g6⟩ := hF
  cases e
  rw [h1] at g1
  simp only [Option.some.injEq, Cell.mk.injEq, true_and] at g1
  rw [← rep_unique h3.rep g3.1 g1.1, ← rep6_unique h4.rep g4.1 g1.2] at g6
  exact ⟨a, A, P, rfl, h1, h2, h3, h4, h5, g6⟩

/-- The end of the call: the roots are stored. -/
theorem spread_done {home home' : Addr → Option (BitVec 64)} {h h2 : Heap (IPD V)} {a : Addr} {A A' : ATree (ND 32 V)} {P P' : ATree (ND 64 (AV V))} {n : Option IPNet} {v : V}
    (hm : h.mem a = some ⟨.tree, ptr A, ptr P⟩) (hl : a < h.next) (hA : Root4 h A) (hP : Root6 home h P) (hA' : Root4 h2 A') (hP' : Root6 home' h2 P') (hn : h.next ≤ h2.next)
    (cA : ∀ x, 1 ≤ cnt x A' → h.next ≤ x ∨ 1 ≤ cnt x A) (cP : ∀ x, 1 ≤ tot x P' → h.next ≤ x ∨ 1 ≤ tot x P)
    (hm2 : ∀ x r s, h.mem x = some ⟨.tree, r, s⟩ → x < h.next → h2.mem x = h.mem x)
    (hi : InsertNet (some ⟨erase A, mapT toTV (erase P)⟩) n v = some (some ⟨erase A', mapT toTV (erase P')⟩))
    (ho : ∀ A2 P2, Root4 h A2 → Root6 home h P2 → ∃ A2' P2', ptr A2' = ptr A2 ∧ ptr P2' = ptr P2 ∧ Root4 h2 A2' ∧ Root6 home' h2 P2' ∧
      ((A2' = A2 ∧ P2' = P2) ∨ InsertNet (some ⟨erase A2, mapT toTV (erase P2)⟩) n v = some (some ⟨erase A2', mapT toTV (erase P2')⟩)) ∧
      (∀ x, 1 ≤ cnt x A2' → h.next ≤ x ∨ 1 ≤ cnt x A2) ∧ ∀ x, 1 ≤ tot x P2' → h.next ≤ x ∨ 1 ≤ tot x P2) :
    HRep home' (h2.put a ⟨.tree, ptr A', ptr P'⟩) (some a) (some ⟨erase A', mapT toTV (erase P')⟩) ∧
    ∀ r2 t2 F2, HRep home h r2 t2 → TRep h r2 t2 F2 → ∃ t2' F2', HRep home' (h2.put a ⟨.tree, ptr A', ptr P'⟩) r2 t2' ∧ TRep (h2.put a ⟨.tree, ptr A', ptr P'⟩) r2 t2' F2' ∧
      (∀ x, F2' x → h.next ≤ x ∨ F2 x) ∧ (t2' = t2 ∨ InsertNet t2 n v = some t2') := by
  have ha2 : h2.mem a = some ⟨.tree, ptr A, ptr P⟩ := (hm2 a _ _ hm hl).trans hm
  have fA : ∀ {A2}, Root4 h2 A2 → Root4 (h2.put a ⟨.tree, ptr A', ptr P'⟩) A2 := fun q => q.frame (by simp) fun x hx => by
    obtain ⟨d, u, v, e⟩ := cell32 q.rep hx
    rw [Heap.mem_put, if_neg]; rintro rfl; rw [e] at ha2; cases ha2
  have fP : ∀ {P2}, Root6 home' h2 P2 → Root6 home' (h2.put a ⟨.tree, ptr A', ptr P'⟩) P2 := fun q => q.frame (by simp) (fun x hx => by
    obtain ⟨d, u, v, e⟩ := q.rep.cell hx
    rw [Heap.mem_put, if_neg]; rintro rfl; rw [e] at ha2; cases ha2) fun _ _ => rfl
  have own : HRep home' (h2.put a ⟨.tree, ptr A', ptr P'⟩) (some a) (some ⟨erase A', mapT toTV (erase P')⟩) :=
    ⟨a, A', P', rfl, by simp, by simp; omega, fA hA', fP hP', rfl⟩
  have trep : ∀ {a2 A2 P2}, (h2.put a ⟨.tree, ptr A', ptr P'⟩).mem a2 = some ⟨.tree, ptr A2, ptr P2⟩ → a2 < h2.next → Root4 h2 A2 → Root6 home' h2 P2 →
      TRep (h2.put a ⟨.tree, ptr A', ptr P'⟩) (some a2) (some ⟨erase A2, mapT toTV (erase P2)⟩) (fun x => x = a2 ∨ 1 ≤ cnt x A2 ∨ 1 ≤ tot x P2) := fun {a2 A2 P2} e1 e2 e3 e4 =>
    ⟨a2, A2, P2, rfl, e1, by simpa using e2, ⟨(fA e3).rep, e3.wf, e3.one⟩, ⟨(fP e4).rep, e4.one⟩, rfl, fun _ => Iff.rfl⟩
  refine ⟨own, fun r2 t2 F2 hT hF => ?_⟩
  cases t2 with
  | none => exact ⟨none, F2, hT, hF, fun x => .inr, .inl rfl⟩
  | some t2 =>
    obtain ⟨a2, A2, P2, rfl, e2, l2, hA2, hP2, rfl, hF2⟩ := hT.foot hF
    have fin : ∀ {A2' : ATree (ND 32 V)} {P2' : ATree (ND 64 (AV V))}, (∀ x, 1 ≤ cnt x A2' → h.next ≤ x ∨ 1 ≤ cnt x A2) → (∀ x, 1 ≤ tot x P2' → h.next ≤ x ∨ 1 ≤ tot x P2) →
        ∀ x, (x = a2 ∨ 1 ≤ cnt x A2' ∨ 1 ≤ tot x P2') → h.next ≤ x ∨ F2 x := by
      intro A2' P2' c1 c2 x hx
      rw [hF2]
      rcases hx with rfl | hx | hx
      · exact .inr (.inl rfl)
      · exact (c1 x hx).imp_right fun q => .inr (.inl q)
      · exact (c2 x hx).imp_right fun q => .inr (.inr q)
    by_cases q : a2 = a
    · subst q
      rw [hm] at e2
      simp only [Option.some.injEq, Cell.mk.injEq, true_and] at e2
      have z1 := rep_unique hA.rep hA2.rep e2.1
      have z2 := rep6_unique hP.rep hP2.rep e2.2
      subst z1 z2
      exact ⟨_, _, own, trep (by simp) (by omega) hA' hP', fin cA cP, .inr hi⟩
    · obtain ⟨A2', P2', o1, o2, o3, o4, o5, o6, o7⟩ := ho A2 P2 hA2 hP2
      have e3 : (h2.put a ⟨.tree, ptr A', ptr P'⟩).mem a2 = some ⟨.tree, ptr A2', ptr P2'⟩ := by rw [Heap.mem_put, if_neg q, hm2 a2 _ _ e2 l2, e2, o1, o2]
      refine ⟨some ⟨erase A2', mapT toTV (erase P2')⟩, _, ⟨a2, A2', P2', rfl, e3, by simp; omega, fA o3, fP o4, rfl⟩, trep e3 (by omega) o3 o4, fin o6 o7, ?_⟩
      rcases o5 with ⟨rfl, rfl⟩ | o5
      · exact .inl rfl
      · exact .inr o5

/-- What the in-place insertion leaves. -/
def Spread (home : Addr → Option (BitVec 64)) (h : Heap (IPD V)) (a : Addr) (t' : Option (Tree V)) (n : Option IPNet) (v : V) (h' : Heap (IPD V)) : Prop :=
  ∃ home', (∀ x, x < h.next → home' x = home x) ∧ HRep home' h' (some a) t' ∧
    ∀ r2 t2 F2, HRep home h r2 t2 → TRep h r2 t2 F2 → ∃ t2' F2', HRep home' h' r2 t2' ∧ TRep h' r2 t2' F2' ∧ (∀ x, F2' x → h.next ≤ x ∨ F2 x) ∧
      (t2' = t2 ∨ InsertNet t2 n v = some t2')

section
variable {f : Nat} (hf : 66 ≤ f) {h : Heap (IPD V)}
include hf

omit [Inhabited V] hf in
theorem tree_ne32 {A : ATree (ND 32 V)} (hA : Root4 h A) {x : Addr} {r s : Ptr} (e : h.mem x = some ⟨.tree, r, s⟩) : cnt x A = 0 := by
  refine Nat.eq_zero_of_not_pos fun q => ?_
  obtain ⟨d, _, _, e'⟩ := cell32 hA.rep q
  rw [e] at e'; cases e'

omit [Inhabited V] hf in
theorem tree_ne64 {P : ATree (ND 64 (AV V))} (hP : Rep6 h P) {x : Addr} {r s : Ptr} (e : h.mem x = some ⟨.tree, r, s⟩) : tot x P = 0 := by
  refine Nat.eq_zero_of_not_pos fun q => ?_
  obtain ⟨d, _, _, e'⟩ := hP.cell q
  rw [e] at e'; cases e'

omit [Inhabited V] hf in
theorem n32_ne64 {A : ATree (ND 32 V)} (hA : Root4 h A) {P : ATree (ND 64 (AV V))} (hP : Rep6 h P) {x : Addr} (hx : 1 ≤ cnt x A) : tot x P = 0 := by
  refine Nat.eq_zero_of_not_pos fun q => ?_
  obtain ⟨d, _, _, e⟩ := hP.cell q
  obtain ⟨d, _, _, e'⟩ := cell32 hA.rep hx
  rw [e] at e'; cases e'

/-- The nested tree has got a new root, no old node was written so far, and the tree is stored. -/
theorem retop_spread {home : Addr → Option (BitVec 64)} {h1 : Heap (IPD V)} {a : Addr} {A : ATree (ND 32 V)} {P : ATree (ND 64 (AV V))} {n : IPNet} {v : V} {k : Pair64}
    (hm : h.mem a = some ⟨.tree, ptr A, ptr P⟩) (hl : a < h.next) (hA : Root4 h A) (hP : Root6 home h P) (e4 : v4Key n = none) (e6 : v6Pair n = some k) (hms : ¬ k.msBits < 64)
    (hk : Kept h h1) {B B' : ATree (ND 64 V)} (hB' : Sub h1 B') (eB' : erase B' = Num.Insert (erase B) k.lsKey k.lsBits v)
    (hor : Num.ExactMatch (erase P) k.msKey k.msBits = some (.sub B) ∨ (Num.ExactMatch (erase P) k.msKey k.msBits = none ∧ B = .nil))
    (cB : ∀ x, cnt x B' ≤ if h.next ≤ x then 1 else cnt x B) :
    wp (fun _ => True) (do
      let r ← rootsP (some a)
      let x ← on64 (InplaceInsertP f r.2 k.msKey k.msBits (.sub (ptr B')))
      setRoot64 (some a) x)
      (fun _ h' => Spread home h a (some ⟨erase A, Num.Insert (mapT toTV (erase P)) k.msKey k.msBits (.sub (Num.Insert (erase B) k.lsKey k.lsBits v))⟩) (some n) v h') h1 := by
  have hb := clamp_ms e6 hms
  have kn := hk.1
  have hm1 := (hk.2 a hl).trans hm
  have hP1 : Root6 home h1 P := hP.frame kn (fun x hx => hk.2 x (hP.rep.lt hx)) fun _ _ => rfl
  have cP : ∀ x, cnt x P ≤ 1 := fun x => by have := hP.one x; unfold tot at this; omega
  have hBk : ∀ x, 1 ≤ cnt x B → home x = some k.msKey ∧ x < h.next := fun x hx => by
    rcases hor with eB | ⟨_, rfl⟩
    · obtain ⟨n, hn, e1, e2⟩ := node_of_exactMatch hP.rep.wf hb eB
      exact ⟨e1 ▸ (hP.homed.2 n hn B e2).2 x hx, hP.rep.lt (by have := sub_lt_tot hn e2 x; omega)⟩
    · simp at hx
  -- the insertion of the nested tree, into the trees that receive it
  let home' := fun x => if x < h.next then home x else if x < h1.next then some k.msKey else none
  have ins : ∀ {h2 : Heap (IPD V)} {P2 P2' : ATree (ND 64 (AV V))}, Root6 home h P2 → Rep6 h2 P2' → erase P2' = Num.Insert (erase P2) k.msKey k.msBits (.sub B') →
      (∀ x, cnt x P2' ≤ if h1.next ≤ x then 1 else cnt x P2) →
      (Num.ExactMatch (erase P2) k.msKey k.msBits = some (.sub B) ∨ (Num.ExactMatch (erase P2) k.msKey k.msBits = none ∧ B = .nil)) →
      Root6 home' h2 P2' ∧ ∀ x, 1 ≤ tot x P2' → h.next ≤ x ∨ 1 ≤ tot x P2 := by
    intro h2 P2 P2' q1 q2 q3 q4 q5
    refine root6_insert q1 kn q2 q3 q4 (fun x hx => SubOk.zero (v := .sub B') hB' hx) (fun x => ?_) (fun x hx => if_pos hx) (fun x hx => ?_) ?_
    · have := cB x
      simp only [subCnt]
      rcases q5 with q5 | ⟨_, rfl⟩
      · have := oldV_of q5 x; grind
      · simp only [cnt_nil] at this; grind
    · show (if x < h.next then home x else if x < h1.next then some k.msKey else none) = none
      rw [if_neg (by omega), if_neg (by omega)]
    · rintro _ ⟨⟩
      refine ⟨hb, fun x hx => ?_⟩
      show (if x < h.next then home x else if x < h1.next then some k.msKey else none) = some k.msKey
      by_cases q : x < h.next
      · rw [if_pos q]
        have := cB x; rw [if_neg (by omega)] at this
        exact (hBk x (by omega)).1
      · rw [if_neg q, if_pos]
        exact Nat.not_le.1 fun z => by
          have := SubOk.zero (v := .sub B') hB' z
          simp only [subCnt] at this; omega
  have fun_ins : ∀ {A2 : ATree (ND 32 V)} {P2 P2' : ATree (ND 64 (AV V))}, erase P2' = Num.Insert (erase P2) k.msKey k.msBits (.sub B') →
      (Num.ExactMatch (erase P2) k.msKey k.msBits = some (.sub B) ∨ (Num.ExactMatch (erase P2) k.msKey k.msBits = none ∧ B = .nil)) →
      InsertNet (some ⟨erase A2, mapT toTV (erase P2)⟩) (some n) v = some (some ⟨erase A2, mapT toTV (erase P2')⟩) := by
    intro A2 P2 P2' q1 q2
    simp only [InsertNet, e4, e6, Option.getD_some, hms, if_false]
    rw [ExactMatch_map, q1, mapT_insert, toTV, eB']
    rcases q2 with q2 | ⟨q2, rfl⟩ <;> rw [q2] <;> rfl
  rw [wp_bind, wp_rootsP hm1, wp_bind]
  have hv : ∀ u ∈ vals (Num.Insert (erase P) k.msKey k.msBits (.sub B')), SubOk h1 u ∧ ∀ a, 1 ≤ cnt a P → subCnt a u = 0 := by
    intro u hu
    rcases vals_insert _ _ u hu with rfl | rfl | q
    · refine ⟨hB', fun x hx => Nat.eq_zero_of_not_pos fun z => ?_⟩
      have z : 1 ≤ cnt x B' := z
      have q := hP.rep.lt (a := x) (by unfold tot; omega)
      have q2 := cB x
      rw [if_neg (by omega)] at q2
      have := (hBk x (by omega)).1
      rw [hP.homed.1 x hx] at this; cases this
    · exact ⟨trivial, fun _ _ => rfl⟩
    · refine ⟨hP1.rep.sub u q, fun x hx => Nat.eq_zero_of_not_pos fun z => ?_⟩
      obtain ⟨_, _, _, _, _, _, q⟩ := hP.homed.nested q z
      rw [hP.homed.1 x hx] at q; cases q
  have hh := wf_height hP.rep.wf
  have w1 := inp6_spec hf hP1.rep.rep hP.rep.wf cP k.msKey k.msBits (.sub B') hv
  have w2 := chg_spec k64 (f := f) hP1.rep.rep (by simpa using cP) (by simp; omega) k.msKey k.msBits (toHV (.sub B'))
  rw [ptr_mapA] at w2
  refine wp_mono (fun _ _ => trivial) ?_ (wp_and w1 w2)
  rintro p h2 ⟨⟨P', rfl, h2', h3, h4, h5, h6⟩, hC⟩
  have hC := hC.imp_right (·.2)
  have tz : ∀ x r s, h.mem x = some ⟨.tree, r, s⟩ → x < h.next → h2.mem x = h.mem x := fun x r s e hx => by
    rw [h6 x (by omega) (by have := tree_ne64 hP.rep e; unfold tot at this; omega), hk.2 x hx]
  rw [wp_setRoot64 ((tz a _ _ hm hl).trans hm)]
  refine ⟨trivial, home', fun x hx => if_pos hx, ?_⟩
  have hA2 : ∀ {A2}, Root4 h A2 → Root4 h2 A2 := fun {A2} q => q.frame (by omega) fun x hx => by
    rw [h6 x (by have := q.lt hx; omega) (by have := n32_ne64 q hP.rep hx; unfold tot at this; omega), hk.2 x (q.lt hx)]
  have ei : Num.Insert (mapT toTV (erase P)) k.msKey k.msBits (.sub (Num.Insert (erase B) k.lsKey k.lsBits v)) = mapT toTV (erase P') := by
    rw [h3, mapT_insert, toTV, eB']
  rw [ei]
  refine spread_done hm hl hA hP (hA2 hA) (ins hP h2' h3 h4 hor).1 (by omega) (fun _ => .inr) (ins hP h2' h3 h4 hor).2 tz (fun_ins h3 hor) fun A2 P2 qA qP => ?_
  have qP1 : Root6 home h1 P2 := qP.frame kn (fun x hx => hk.2 x (qP.rep.lt hx)) fun _ _ => rfl
  have hB2 : Sub h2 B' := Sub.frame hB' h5 fun x hx => by
    refine h6 x (Sub.lt hB' hx) (Nat.eq_zero_of_not_pos fun z => ?_)
    have q := hP.rep.lt (a := x) (by unfold tot; omega)
    have q2 := cB x
    rw [if_neg (by omega)] at q2
    have := (hBk x (by omega)).1
    rw [hP.homed.1 x z] at this; cases this
  rcases top_other h5 hP1.rep.rep hP.rep.wf hP.homed.1 qP1 hC hB2 with hs | ⟨P2', q1, q2, q3, q4, q5⟩
  · exact ⟨A2, P2, rfl, rfl, hA2 qA, qP.frame (by omega) (fun x hx => (hs x hx).trans (hk.2 x (qP.rep.lt hx))) (fun x hx => if_pos hx), .inl ⟨rfl, rfl⟩, fun _ => .inr, fun _ => .inr⟩
  · have hor2 : Num.ExactMatch (erase P2) k.msKey k.msBits = some (.sub B) ∨ (Num.ExactMatch (erase P2) k.msKey k.msBits = none ∧ B = .nil) := by
      rcases hor with e | ⟨e, rfl⟩
      · rw [e] at q5
        cases e2 : Num.ExactMatch (erase P2) k.msKey k.msBits with
        | none => rw [e2] at q5; cases q5
        | some u =>
          rw [e2] at q5
          simp only [Option.map_some, Option.some.injEq] at q5
          rw [subOk_unique (h := h) (qP.rep.sub _ (vals_ExactMatch e2)) (hP.rep.sub _ (vals_ExactMatch e)) q5]
          exact .inl rfl
      · rw [e] at q5
        cases e2 : Num.ExactMatch (erase P2) k.msKey k.msBits with
        | none => exact .inr ⟨rfl, rfl⟩
        | some u => rw [e2] at q5; cases q5
    exact ⟨A2, P2', rfl, q1, hA2 qA, (ins qP q2 q3 q4 hor2).1, .inr (fun_ins q3 hor2), fun _ => .inr, (ins qP q2 q3 q4 hor2).2⟩

/-- An in-place insertion leaves every other tree as it is or makes the same insertion there. -/
theorem InplaceInsertNetP_spread {home : Addr → Option (BitVec 64)} {a : Addr} {t : Tree V} {t' : Option (Tree V)} (hT : HRep home h (some a) (some t)) {n : Option IPNet} {v : V}
    (hi : InsertNet (some t) n v = some t') : wp (fun _ => True) (InplaceInsertNetP f (some a) n v) (fun _ h' => Spread home h a t' n v h') h := by
  have hT0 := hT
  obtain ⟨a', A, P, ea, hm, hl, hA, hP, ht⟩ := hT
  cases ea
  unfold InplaceInsertNetP
  cases n with
  | none =>
    simp only [InsertNet, Option.some.injEq] at hi; subst hi
    exact ⟨home, fun _ _ => rfl, hT0, fun r2 t2 F2 q q' => ⟨t2, F2, q, q', fun _ => .inr, .inl rfl⟩⟩
  | some n =>
    subst ht
    have hi0 := hi
    simp only [InsertNet, Option.getD_some] at hi
    cases e4 : v4Key n with
    | some kb =>
      obtain ⟨key, bits⟩ := kb
      simp only [e4, Option.some.injEq] at hi ⊢
      subst hi
      rw [wp_bind, wp_rootsP hm, wp_bind]
      have hh := wf_height hA.wf
      refine wp_mono (fun _ _ => trivial) ?_ (wp_and (inp4_spec hf hA.rep hA.wf hA.one key bits v) (chg_spec k32 (f := f) hA.rep hA.one (by omega) key bits v))
      rintro p h2 ⟨⟨A', rfl, h2', h3, h4, h5, h6⟩, hC⟩
      have tz : ∀ x r s, h.mem x = some ⟨.tree, r, s⟩ → x < h.next → h2.mem x = h.mem x := fun x r s e hx => h6 x hx (tree_ne32 hA e)
      rw [wp_setRoot32 ((tz a _ _ hm hl).trans hm)]
      refine ⟨trivial, home, fun _ _ => rfl, ?_⟩
      have hP2 : ∀ {P2}, Root6 home h P2 → Root6 home h2 P2 := fun {P2} q => q.frame h5 (fun x hx => h6 x (q.rep.lt hx) (Nat.eq_zero_of_not_pos fun z => by
        have := n32_ne64 hA q.rep z; omega)) fun _ _ => rfl
      have fun_ins : ∀ {A2 A2' : ATree (ND 32 V)} {P2 : ATree (ND 64 (AV V))}, erase A2' = Num.Insert (erase A2) key bits v →
          InsertNet (some ⟨erase A2, mapT toTV (erase P2)⟩) (some n) v = some (some ⟨erase A2', mapT toTV (erase P2)⟩) := by
        intro A2 A2' P2 q
        simp only [InsertNet, e4, Option.getD_some, q]
      rw [← h3]
      refine spread_done hm hl hA hP ⟨h2', by rw [h3]; exact insert_wf' hA.wf _ _ _, fun x => by have := h4 x; have := hA.one x; grind⟩ (hP2 hP) h5
        (fun x hx => by have := h4 x; grind) (fun _ => .inr) tz (fun_ins h3) fun A2 P2 qA qP => ?_
      rcases hC with hs | ⟨_, c, hc⟩
      · exact ⟨A2, P2, rfl, rfl, qA.frame h5 fun x hx => hs x (qA.lt hx), hP2 qP, .inl ⟨rfl, rfl⟩, fun _ => .inr, fun _ => .inr⟩
      · by_cases hx : 1 ≤ cnt c A2
        · obtain ⟨A2', q1, q2, q3, q4, _⟩ := hc.other (clamp_le (bits : Int)) h5 hA.rep hA.wf qA.rep qA.wf qA.one hx
          have q4 : erase A2' = Num.Insert (erase A2) key bits v := q4
          exact ⟨A2', P2, q1, rfl, ⟨q2, by rw [q4]; exact insert_wf' qA.wf _ _ _, fun x => by have := q3 x; have := qA.one x; grind⟩, hP2 qP, .inr (fun_ins q4),
            fun x hx => by have := q3 x; grind, fun _ => .inr⟩
        · obtain ⟨_, _, _, _, _, _, _, _, _, _, hcm, _⟩ := hc
          exact ⟨A2, P2, rfl, rfl, qA.frame h5 fun x hx' => hcm x (qA.lt hx') (by rintro rfl; exact hx hx'), hP2 qP, .inl ⟨rfl, rfl⟩, fun _ => .inr, fun _ => .inr⟩
    | none =>
      simp only [e4] at hi ⊢
      cases e6 : v6Pair n with
      | none =>
        simp only [e6, Option.some.injEq] at hi ⊢
        subst hi
        exact ⟨home, fun _ _ => rfl, hT0, fun r2 t2 F2 q q' => ⟨t2, F2, q, q', fun _ => .inr, .inl rfl⟩⟩
      | some k =>
        simp only [e6] at hi ⊢
        have cP : ∀ x, cnt x P ≤ 1 := fun x => by have := hP.one x; unfold tot at this; omega
        by_cases hms : k.msBits < 64
        · simp only [hms, if_true, Option.some.injEq] at hi ⊢
          subst hi
          rw [wp_bind, wp_rootsP hm, wp_bind]
          have hh := wf_height hP.rep.wf
          have w1 := inp6_spec hf hP.rep.rep hP.rep.wf cP k.msKey k.msBits (.user v) (fun u hu => by
            rcases vals_insert _ _ u hu with rfl | rfl | q
            · exact ⟨trivial, fun _ _ => rfl⟩
            · exact ⟨trivial, fun _ _ => rfl⟩
            · refine ⟨hP.rep.sub u q, fun x hx => Nat.eq_zero_of_not_pos fun z => ?_⟩
              obtain ⟨_, _, _, _, _, _, q⟩ := hP.homed.nested q z
              rw [hP.homed.1 x hx] at q; cases q)
          have w2 := chg_spec k64 (f := f) hP.rep.rep (by simpa using cP) (by simp; omega) k.msKey k.msBits (toHV (.user v))
          rw [ptr_mapA] at w2
          refine wp_mono (fun _ _ => trivial) ?_ (wp_and w1 w2)
          rintro p h2 ⟨⟨P', rfl, h2', h3, h4, h5, h6⟩, hC⟩
          have hC := hC.imp_right (·.2)
          have tz : ∀ x r s, h.mem x = some ⟨.tree, r, s⟩ → x < h.next → h2.mem x = h.mem x := fun x r s e hx =>
            h6 x hx (by have := tree_ne64 hP.rep e; unfold tot at this; omega)
          rw [wp_setRoot64 ((tz a _ _ hm hl).trans hm)]
          refine ⟨trivial, fun x => if x < h.next then home x else none, fun x hx => if_pos hx, ?_⟩
          have hA2 : ∀ {A2}, Root4 h A2 → Root4 h2 A2 := fun {A2} q => q.frame h5 fun x hx =>
            h6 x (q.lt hx) (by have := n32_ne64 q hP.rep hx; unfold tot at this; omega)
          have ins : ∀ {P2 P2' : ATree (ND 64 (AV V))}, Root6 home h P2 → Rep6 h2 P2' → erase P2' = Num.Insert (erase P2) k.msKey k.msBits (.user v) →
              (∀ x, cnt x P2' ≤ if h.next ≤ x then 1 else cnt x P2) →
              Root6 (fun x => if x < h.next then home x else none) h2 P2' ∧ ∀ x, 1 ≤ tot x P2' → h.next ≤ x ∨ 1 ≤ tot x P2 := fun q1 q2 q3 q4 =>
            root6_insert q1 (Nat.le_refl _) q2 q3 q4 (fun _ _ => rfl) (fun x => by simp [subCnt]) (fun x hx => if_pos hx) (fun x hx => if_neg (by omega)) (by rintro _ ⟨⟩)
          have fun_ins : ∀ {A2 : ATree (ND 32 V)} {P2 P2' : ATree (ND 64 (AV V))}, erase P2' = Num.Insert (erase P2) k.msKey k.msBits (.user v) →
              InsertNet (some ⟨erase A2, mapT toTV (erase P2)⟩) (some n) v = some (some ⟨erase A2, mapT toTV (erase P2')⟩) := by
            intro A2 P2 P2' q
            simp only [InsertNet, e4, e6, Option.getD_some, hms, if_true]
            rw [q, mapT_insert]; rfl
          rw [show (TV.user v) = toTV (.user v) from rfl, ← mapT_insert, ← h3]
          refine spread_done hm hl hA hP (hA2 hA) (ins hP h2' h3 h4).1 h5 (fun _ => .inr) (ins hP h2' h3 h4).2 tz (fun_ins h3) fun A2 P2 qA qP => ?_
          rcases top_other h5 hP.rep.rep hP.rep.wf hP.homed.1 qP hC trivial with hs | ⟨P2', q1, q2, q3, q4, _⟩
          · exact ⟨A2, P2, rfl, rfl, hA2 qA, qP.frame h5 hs (fun x hx => if_pos hx), .inl ⟨rfl, rfl⟩, fun _ => .inr, fun _ => .inr⟩
          · exact ⟨A2, P2', rfl, q1, hA2 qA, (ins qP q2 q3 q4).1, .inr (fun_ins q3), fun _ => .inr, (ins qP q2 q3 q4).2⟩
        · simp only [hms, if_false, Option.map_eq_some_iff] at hi ⊢
          have hb := clamp_ms e6 hms
          obtain ⟨s, hs, rfl⟩ := hi
          rw [wp_bind, wp_rootsP hm, wp_bind]
          refine wp_conseq (exact6_spec hf hP.rep k.msKey k.msBits) ?_
          rintro _ h' ⟨eh, rfl⟩
          have eh := eh.symm
          subst eh
          obtain ⟨B, hsub, hB, rfl, hor, ho⟩ := sub_found hP.rep hs
          have hh := wf_height hB.2
          rcases hor with eB | ⟨eB, rfl⟩
          · rw [eB] at hsub
            simp only [eB, Option.map_some] at hsub ⊢
            rw [wp_bind]
            apply hsub
            rw [wp_bind]
            have mB : (AV.sub B) ∈ vals (erase P) := vals_ExactMatch eB
            have tB : ∀ x, cnt x P + cnt x B ≤ tot x P := fun x => by
              have := sub_le_sum (subCnt x) mB; unfold tot; simp only [subCnt] at this; omega
            have cB1 : ∀ x, cnt x B ≤ 1 := fun x => by have := tB x; have := hP.one x; omega
            have w2 := chg_spec k64 (f := f) hB.1 (by simpa using cB1) (by simp; omega) k.lsKey k.lsBits (.user v)
            rw [ptr_mapA] at w2
            refine wp_mono (fun _ _ => trivial) ?_ (wp_and (inpB_spec hf hB cB1 k.lsKey k.lsBits v) w2)
            rintro p h1 ⟨⟨B', rfl, hB', eB', cB, kn, km⟩, hC⟩
            by_cases hne : ptr B' = ptr B
            · simp only [hne, ne_eq, not_true, if_false]
              have hC := hC.imp_right (·.2)
              obtain ⟨P', z1, z2, z3, z4⟩ := nested_root hP hb eB hB' hne cB kn km
              have tz : ∀ x r s, h.mem x = some ⟨.tree, r, s⟩ → x < h.next → h1.mem x = h.mem x := fun x r s e hx =>
                km x hx (by have := tB x; have := tree_ne64 hP.rep e; omega)
              have hA2 : ∀ {A2}, Root4 h A2 → Root4 h1 A2 := fun {A2} q => q.frame kn fun x hx =>
                km x (q.lt hx) (by have := tB x; have := n32_ne64 q hP.rep hx; omega)
              have noop : h1.put a ⟨.tree, ptr A, ptr P'⟩ = h1 := by
                have hm1 := (tz a _ _ hm hl).trans hm
                rw [z1]; rcases h1 with ⟨m, nx⟩
                simp only [Heap.put, Heap.mk.injEq, and_true]
                funext z
                by_cases q : z = a
                · subst q; simp at hm1; simp [hm1]
                · simp [q]
              have fun_ins : ∀ {A2 : ATree (ND 32 V)} {P2 P2' : ATree (ND 64 (AV V))} {B2 B2' : ATree (ND 64 V)}, Num.ExactMatch (erase P2) k.msKey k.msBits = some (.sub B2) →
                  erase B2' = Num.Insert (erase B2) k.lsKey k.lsBits v → erase P2' = Num.Insert (erase P2) k.msKey k.msBits (.sub B2') →
                  InsertNet (some ⟨erase A2, mapT toTV (erase P2)⟩) (some n) v = some (some ⟨erase A2, mapT toTV (erase P2')⟩) := by
                intro A2 P2 P2' B2 B2' q1 q2 q3
                simp only [InsertNet, e4, e6, Option.getD_some, hms, if_false]
                rw [ExactMatch_map, q1, q3, mapT_insert, toTV, q2]; rfl
              have ei : Num.Insert (mapT toTV (erase P)) k.msKey k.msBits (.sub (Num.Insert (erase B) k.lsKey k.lsBits v)) = mapT toTV (erase P') := by
                rw [z2, mapT_insert, toTV, eB']
              simp only [ei]
              have := spread_done hm hl hA hP (hA2 hA) z3 kn (fun _ => .inr) z4 tz (fun_ins (A2 := A) eB eB' z2) (fun A2 P2 qA qP => by
                rcases nested_other kn hP hb eB qP hC with hs | ⟨B2, B2', P2', q1, q2, q3, q4, q5, q6⟩
                · exact ⟨A2, P2, rfl, rfl, hA2 qA, qP.frame kn hs (fun x hx => if_pos hx), .inl ⟨rfl, rfl⟩, fun _ => .inr, fun _ => .inr⟩
                · exact ⟨A2, P2', rfl, q3, hA2 qA, q5, .inr (fun_ins q1 q2 q4), fun _ => .inr, q6⟩)
              rw [noop] at this
              exact ⟨_, fun x hx => if_pos hx, this⟩
            · simp only [ne_eq, hne, not_false_eq_true, if_true]
              have hk : Kept h h1 := ⟨kn, by
                rcases hC with hs | ⟨q, _⟩
                · exact hs
                · exact (hne q).elim⟩
              exact retop_spread hf hm hl hA hP e4 e6 hms hk hB' eB' (.inl eB) cB
          · simp only [eB, Option.map_none]
            rw [wp_bind]
            refine wp_mono (fun _ _ => trivial) ?_ (inpB_spec hf hB (by simp) k.lsKey k.lsBits v)
            rintro p h1 ⟨B', rfl, hB', eB', cB, kn, km⟩
            exact retop_spread hf hm hl hA hP e4 e6 hms ⟨kn, fun x hx => km x hx rfl⟩ hB' eB' (.inr ⟨eB, rfl⟩) cB
end
end

end Verif.IPHeap
