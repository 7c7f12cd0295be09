import Verif.UIPHeap.Homes
import Verif.IPHeap.Spread

/-!
# What an in-place insertion into one generated IP tree does to the other trees that share nodes with it

As `IPHeap/Spread.lean`.  Where the written node is in a nested tree, each tree keeps the spelling of the network it has in `root64`
(`SameNet`).
-/

namespace Verif.UIPHeap
open Verif Verif.Heap Verif.Heap.Prog Verif.Heap.ATree Verif.Num Verif.NumHeap
open Verif.IP (v4Key v6Pair Pair64)
open Verif.UIP (Tree)
open Verif.IPHeap (HitAt chg_spec)

variable {V : Type}

theorem sub_unique {h : Heap (UD V)} {A B : AB V} (hA : Sub h A) (hB : Sub h B) (hp : ptr A = ptr B) : A = B := rep_unique hA.1 hB.1 hp

theorem rep6_unique {h : Heap (UD V)} {P P2 : ATree (ND 64 (AB V))} (hP : Rep6 h P) (hP2 : Rep6 h P2) (hp : ptr P = ptr P2) : P = P2 := by
  have e := rep_unique hP.rep hP2.rep (by simpa using hp)
  have h1 := hP.sub
  have h2 := hP2.sub
  clear hP hP2 hp
  induction P generalizing P2 with
  | nil => cases P2 <;> simp [mapA] at e ⊢
  | node a l r ihl ihr =>
    cases P2 with
    | nil => simp [mapA] at e
    | node b l' r' =>
      obtain ⟨a1, k1, b1, l1, v1⟩ := a
      obtain ⟨a2, k2, b2, l2, v2⟩ := b
      simp only [mapA, BTree.map, BTree.node.injEq, ND.mapV, Prod.mk.injEq, ND.mk.injEq] at e
      obtain ⟨⟨rfl, rfl, rfl, rfl, e⟩, e1, e2⟩ := e
      simp only [erase_node, vals, List.mem_cons, List.mem_append] at h1 h2
      rw [sub_unique (h1 v1 (.inl rfl)) (h2 v2 (.inl rfl)) e, ihl e1 (fun v hv => h1 v (.inr (.inl hv))) (fun v hv => h2 v (.inr (.inl hv))),
        ihr e2 (fun v hv => h1 v (.inr (.inr hv))) (fun v hv => h2 v (.inr (.inr hv)))]

/-- Nodes of nested trees are not nodes of `root64`. -/
theorem Homed.nested {home : Home} {P : ATree (ND 64 (AB V))} (hH : Homed home P) {u : AB V} (hu : u ∈ vals (erase P)) {x : Addr} (hx : 1 ≤ cnt x u) :
    ∃ n ∈ nodes (erase P), n.value = u ∧ n.leaf = true ∧ home x = some n.sig := by
  rw [vals_nodes, List.mem_map] at hu
  obtain ⟨n, hn, rfl⟩ := hu
  obtain ⟨q1, q2⟩ := hH.2 n hn x hx
  exact ⟨n, hn, rfl, q1, q2⟩

theorem tot_split {P : ATree (ND 64 (AB V))} {x : Addr} (hx : 1 ≤ tot x P) : 1 ≤ cnt x P ∨ ∃ u ∈ vals (erase P), 1 ≤ cnt x u := by
  by_cases q : 1 ≤ cnt x P
  · exact .inl q
  · unfold tot at hx
    have : 1 ≤ sumV (cnt x) (erase P) := by omega
    rw [sumV_vals] at this
    exact .inr (sum_pos this)

theorem oldV_of {t : NTree 64 (AB V)} {k : BitVec 64} {b : Int} {B : AB V} (e : Num.ExactMatch t k b = some B) (x : Addr) :
    oldV (cnt x) t k (clamp 64 b) = cnt x B := by
  unfold Num.ExactMatch Num.FindNode at e
  unfold oldV
  cases e' : exactMatch t k (clamp 64 b) with
  | nil => simp [e'] at e
  | node n l r => simp [e'] at e; simp [e]

/-- What a write to a node of `root64` does to another `root64`. -/
theorem top_other {home : Home} {h h' : Heap (UD V)} {P P2 : ATree (ND 64 (AB V))} {k : BitVec 64} {b : Int} {v : AB V} (hn : h.next ≤ h'.next)
    (hP : Rep (k64s.view h) (mapA ptr P)) (hw : WF [] (erase P)) (hH : ∀ x, 1 ≤ cnt x P → home x = none) (hR : Root6 home h P2)
    (hC : (∀ a, a < h.next → h'.mem a = h.mem a) ∨ ∃ c, HitAt k64s (mapA ptr P) ⟨k, clamp 64 b, true, ptr v⟩ h h' c) (hv : Sub h' v) :
    (∀ x, 1 ≤ tot x P2 → h'.mem x = h.mem x) ∨ ∃ P2', ptr P2' = ptr P2 ∧ Rep6 h' P2' ∧ erase P2' = Num.Insert (erase P2) k b v ∧
      (∀ x, cnt x P2' ≤ if h.next ≤ x then 1 else cnt x P2) ∧ (Num.ExactMatch (erase P2) k b).map ptr = (Num.ExactMatch (erase P) k b).map ptr := by
  rcases hC with hs | ⟨c, hc⟩
  · exact .inl fun x hx => hs x (hR.rep.lt hx)
  · have hcP : 1 ≤ cnt c P := by obtain ⟨_, _, _, _, q, _⟩ := hc; simpa using q
    have hcm : ∀ x, x < h.next → x ≠ c → h'.mem x = h.mem x := by obtain ⟨_, _, _, _, _, _, _, _, _, _, q, _⟩ := hc; exact q
    have hnest : ∀ u ∈ vals (erase P2), ∀ x, 1 ≤ cnt x u → h'.mem x = h.mem x := fun u hu x hx => by
      obtain ⟨n, _, _, _, q⟩ := hR.homed.nested hu hx
      refine hcm x (Nat.not_le.1 fun z => ?_) ?_
      · have := (hR.rep.sub u hu).zero z; omega
      · rintro rfl
        rw [hH x hcP] at q; cases q
    by_cases hc2 : 1 ≤ cnt c P2
    · obtain ⟨B', q1, q2, q3, q4, q5⟩ := hc.other (clamp_le b) hn hP (by rw [erase_mapA, wf_map]; exact hw) hR.rep.rep
        (by rw [erase_mapA, wf_map]; exact hR.rep.wf) (fun x => by have := hR.one x; unfold tot at this; simp; omega) (by simpa using hc2)
      rw [erase_mapA] at q4
      obtain ⟨P2', p1, p2⟩ := mapA_split ptr B' (Num.Insert (erase P2) k b v) (q4.trans (Insert_map ptr rfl _ k b v))
      subst p2
      refine .inr ⟨P2', by simpa using q1, ⟨q2, fun u hu => ?_, ?_⟩, p1, by simpa using q3, ?_⟩
      · rw [p1] at hu
        rcases vals_insert _ _ u hu with rfl | rfl | q
        · exact hv
        · exact ⟨trivial, trivial⟩
        · exact (hR.rep.sub u q).frame hn (hnest u q)
      · rw [p1]; exact insert_wf' hR.rep.wf _ _ _
      · rw [← ExactMatch_map, ← ExactMatch_map, exactMatch_eq_den ((wf_map ..).2 hR.rep.wf), exactMatch_eq_den ((wf_map ..).2 hw)]
        rw [erase_mapA, erase_mapA] at q5
        exact q5
    · refine .inl fun x hx => ?_
      rcases tot_split hx with q | ⟨u, hu, q⟩
      · exact hcm x (hR.rep.lt hx) (by rintro rfl; exact hc2 q)
      · exact hnest u hu x q

/-- The tree nested under a key was changed in place, at the same pointer. -/
theorem nested_root {home : Home} {h h1 : Heap (UD V)} {P : ATree (ND 64 (AB V))} {k : BitVec 64} {b : Int} {B B' : AB V} (hP : Root6 home h P)
    (eB : Num.ExactMatch (erase P) k b = some B) (hB' : Sub h1 B') (hp : ptr B' = ptr B)
    (cB : ∀ x, cnt x B' ≤ if h.next ≤ x then 1 else cnt x B) (kn : h.next ≤ h1.next) (km : ∀ a, a < h.next → cnt a B = 0 → h1.mem a = h.mem a) :
    ∃ key P', (∀ i, i < clamp 64 b → key.getMsbD i = k.getMsbD i) ∧ Num.ExactMatch (erase P) key b = some B ∧
      ptr P' = ptr P ∧ erase P' = Num.Insert (erase P) key b B' ∧ Root6 (fun x => if x < h.next then home x else some (Verif.sig k (clamp 64 b))) h1 P' ∧
      ∀ x, 1 ≤ tot x P' → h.next ≤ x ∨ 1 ≤ tot x P := by
  obtain ⟨nd, xx, yy, e1, e2⟩ : ∃ n x y, exactMatch (erase P) k (clamp 64 b) = .node n x y ∧ n.value = B := by
    have eB := eB
    unfold Num.ExactMatch Num.FindNode at eB
    cases e' : exactMatch (erase P) k (clamp 64 b) with
    | nil => simp [e'] at eB
    | node n l r => simp [e'] at eB; exact ⟨n, l, r, rfl, eB⟩
  obtain ⟨f1, f2, f3⟩ := exactMatch_found hP.rep.wf (clamp_le b) e1
  have hsig : Verif.sig nd.key (clamp 64 b) = Verif.sig k (clamp 64 b) := (sig_eq_iff _ _ _ _).2 ⟨rfl, f3⟩
  have e1' : exactMatch (erase P) nd.key (clamp 64 b) = .node nd xx yy := by
    rw [← e1]; exact exactMatch_congr _ (clamp_le b) hsig
  have eBn : Num.ExactMatch (erase P) nd.key b = some B := by
    unfold Num.ExactMatch Num.FindNode
    rw [e1', ← e2]
  obtain ⟨r1, r2, r3⟩ := resub_vals hP.rep hP.one eBn hB' cB kn km
  have same : mapT ptr (Num.Insert (erase P) nd.key b B') = mapT ptr (erase P) := by
    rw [← Insert_map ptr rfl]
    have q := insert_self (t := mapT ptr (erase P)) (P := []) ((wf_map ptr [] _).2 hP.rep.wf) (clamp_le b) (n := nd.mapV ptr) (x := mapT ptr xx) (y := mapT ptr yy)
      (by rw [exactMatch_map]; simp only [ND.mapV]; rw [e1']; rfl)
    have e3 : ptr B' = (nd.mapV ptr).value := by simp only [ND.mapV, e2, hp]
    unfold Num.Insert
    rw [e3]; exact q
  obtain ⟨P', p1, p2⟩ := mapA_split ptr (mapA ptr P) (Num.Insert (erase P) nd.key b B') (by rw [erase_mapA, same])
  have pc : ∀ x, cnt x P' = cnt x P := fun x => by have := congrArg (cnt x) p2; simpa using this
  have pp : ptr P' = ptr P := by have := congrArg ptr p2; simpa using this
  have hT : ∀ x, tot x P' ≤ if h.next ≤ x then 1 else tot x P := fun x => by unfold tot; rw [pc, p1]; exact r3 x
  refine ⟨nd.key, P', f3, eBn, pp, p1, ⟨⟨by rw [p2]; exact r1, fun u hu => (r2 u (p1 ▸ hu)).1, by rw [p1]; exact insert_wf' hP.rep.wf _ _ _⟩, fun x => ?_, fun x hx => ?_, fun n hmem x hx => ?_⟩,
    fun x hx => by have := hT x; grind⟩
  · have := hT x; have := hP.one x; grind
  · rw [pc] at hx
    show (if x < h.next then home x else some (Verif.sig k (clamp 64 b))) = none
    rw [if_pos (hP.rep.lt (by unfold tot; omega)), hP.homed.1 x hx]
  · rw [p1] at hmem
    show n.leaf = true ∧ (if x < h.next then home x else some (Verif.sig k (clamp 64 b))) = some n.sig
    rcases nodes_insert _ _ n hmem with rfl | e | q
    · refine ⟨rfl, ?_⟩
      have hx : 1 ≤ cnt x B' := hx
      show _ = some (Verif.sig nd.key (clamp 64 b))
      rw [hsig]
      split
      · rename_i q
        have q1 : 1 ≤ cnt x B := by have := cB x; rw [if_neg (by omega)] at this; omega
        obtain ⟨n, hn, e1, rfl, _⟩ := node_of_exactMatch hP.rep.wf eB
        exact e1 ▸ (hP.homed.2 n hn x q1).2
      · rfl
    · rw [e] at hx
      have hx : 1 ≤ cnt x (.nil : AB V) := hx
      simp at hx
    · obtain ⟨q1, q2⟩ := hP.homed.2 n q x hx
      refine ⟨q1, ?_⟩
      rw [if_pos (hP.rep.lt (by have := sub_lt_tot q x; omega)), q2]

/-- What a write to a node of a nested tree does to another `root64`. -/
theorem nested_other [Inhabited V] {home : Home} {h h' : Heap (UD V)} {P P2 : ATree (ND 64 (AB V))} {k : BitVec 64} {b : Int} {B : AB V} {ls : BitVec 64} {lb : Int} {v : V}
    (hn : h.next ≤ h'.next) (hP : Root6 home h P) (eB : Num.ExactMatch (erase P) k b = some B) (hR : Root6 home h P2)
    (hC : (∀ a, a < h.next → h'.mem a = h.mem a) ∨ ∃ c, HitAt k64 B ⟨ls, clamp 64 lb, true, v⟩ h h' c) :
    (∀ x, 1 ≤ tot x P2 → h'.mem x = h.mem x) ∨ ∃ key B2 B2' P2', (∀ i, i < clamp 64 b → key.getMsbD i = k.getMsbD i) ∧
      Num.ExactMatch (erase P2) key b = some B2 ∧ erase B2' = Num.Insert (erase B2) ls lb v ∧
      ptr P2' = ptr P2 ∧ erase P2' = Num.Insert (erase P2) key b B2' ∧ Root6 (fun x => if x < h.next then home x else some (Verif.sig k (clamp 64 b))) h' P2' ∧
      ∀ x, 1 ≤ tot x P2' → h.next ≤ x ∨ 1 ≤ tot x P2 := by
  rcases hC with hs | ⟨c, hc⟩
  · exact .inl fun x hx => hs x (hR.rep.lt hx)
  · have hcB : 1 ≤ cnt c B := by obtain ⟨_, _, _, _, q, _⟩ := hc; exact q
    have hcm : ∀ x, x < h.next → x ≠ c → h'.mem x = h.mem x := by obtain ⟨_, _, _, _, _, _, _, _, _, _, q, _⟩ := hc; exact q
    have hk : home c = some (Verif.sig k (clamp 64 b)) := by
      obtain ⟨n, hn, e1, rfl, _⟩ := node_of_exactMatch hP.rep.wf eB
      exact e1 ▸ (hP.homed.2 n hn c hcB).2
    by_cases hc2 : 1 ≤ tot c P2
    · rcases tot_split hc2 with q | ⟨u, hu, q⟩
      · rw [hR.homed.1 c q] at hk; cases hk
      · obtain ⟨n, hn2, rfl, el, q2⟩ := hR.homed.nested hu q
        rw [hk] at q2
        have eB2 : Num.ExactMatch (erase P2) k b = some n.value := exactMatch_of_node hR.rep.wf hn2 el (by simpa using q2)
        have mB := vals_ExactMatch eB
        have mB2 := vals_ExactMatch eB2
        have hB : Sub h B := hP.rep.sub _ mB
        have hB2 : Sub h n.value := hR.rep.sub _ mB2
        obtain ⟨B2', c1, c2, c3, c4, _⟩ := hc.other (clamp_le lb) hn hB.1 hB.2 hB2.1 hB2.2 (fun x => by have := hR.one x; have := cntSub_le_tot mB2 x; omega) q
        have p1 : erase B2' = Num.Insert (erase n.value) ls lb v := c4
        obtain ⟨key, P2', z0, z1, z2, z3⟩ := nested_root hR eB2 (B' := B2') ⟨c2, by rw [p1]; exact insert_wf' hB2.2 _ _ _⟩ c1 c3 hn
          (fun a ha hz => hcm a ha (by rintro rfl; omega))
        exact .inr ⟨key, n.value, B2', P2', z0, z1, p1, z2, z3⟩
    · exact .inl fun x hx => hcm x (hR.rep.lt hx) (by rintro rfl; exact hc2 hx)

/-- The trees of an object, with its cells. -/
theorem HRep.foot {home : Home} {h : Heap (UD V)} {r : Ptr} {t : Tree V} {F : Addr → Prop} (hT : HRep home h r (some t)) (hF : TRep h r (some t) F) :
    ∃ a A P, r = some a ∧ h.mem a = some ⟨.tree, ptr A, ptr P⟩ ∧ a < h.next ∧ Root4 h A ∧ Root6 home h P ∧ t = ⟨erase A, mapT erase (erase P)⟩ ∧
      ∀ x, F x ↔ x = a ∨ 1 ≤ cnt x A ∨ 1 ≤ tot x P := by
  obtain ⟨a, A, P, rfl, h1, h2, h3, h4, h5⟩ := hT
  obtain ⟨a', A', P', e, g1, g2, g3, g4, g5, g6⟩ := hF
  cases e
  rw [h1] at g1
  simp only [Option.some.injEq, Cell.mk.injEq, true_and] at g1
  rw [← rep_unique h3.rep g3.1 g1.1, ← rep6_unique h4.rep g4.1 g1.2] at g6
  exact ⟨a, A, P, rfl, h1, h2, h3, h4, h5, g6⟩

variable [Inhabited V]

/-- The tree after the insertion of a network, in one of its spellings. -/
def Ins (t : Option (Tree V)) (n : Option IPNet) (v : V) (t' : Option (Tree V)) : Prop := ∃ n', SameNet n n' ∧ t' = UIP.InsertNet t n' v

/-- The end of the call: the roots are stored. -/
theorem spread_done {home home' : Home} {h h2 : Heap (UD V)} {a : Addr} {A A' : ATree (ND 32 V)} {P P' : ATree (ND 64 (AB V))} {n : Option IPNet} {v : V}
    (hm : h.mem a = some ⟨.tree, ptr A, ptr P⟩) (hl : a < h.next) (hA : Root4 h A) (hP : Root6 home h P) (hA' : Root4 h2 A') (hP' : Root6 home' h2 P') (hn : h.next ≤ h2.next)
    (cA : ∀ x, 1 ≤ cnt x A' → h.next ≤ x ∨ 1 ≤ cnt x A) (cP : ∀ x, 1 ≤ tot x P' → h.next ≤ x ∨ 1 ≤ tot x P)
    (hm2 : ∀ x r s, h.mem x = some ⟨.tree, r, s⟩ → x < h.next → h2.mem x = h.mem x)
    (hi : Ins (some ⟨erase A, mapT erase (erase P)⟩) n v (some ⟨erase A', mapT erase (erase P')⟩))
    (ho : ∀ A2 P2, Root4 h A2 → Root6 home h P2 → ∃ A2' P2', ptr A2' = ptr A2 ∧ ptr P2' = ptr P2 ∧ Root4 h2 A2' ∧ Root6 home' h2 P2' ∧
      ((A2' = A2 ∧ P2' = P2) ∨ Ins (some ⟨erase A2, mapT erase (erase P2)⟩) n v (some ⟨erase A2', mapT erase (erase P2')⟩)) ∧
      (∀ x, 1 ≤ cnt x A2' → h.next ≤ x ∨ 1 ≤ cnt x A2) ∧ ∀ x, 1 ≤ tot x P2' → h.next ≤ x ∨ 1 ≤ tot x P2) :
    HRep home' (h2.put a ⟨.tree, ptr A', ptr P'⟩) (some a) (some ⟨erase A', mapT erase (erase P')⟩) ∧
    ∀ r2 t2 F2, HRep home h r2 t2 → TRep h r2 t2 F2 → ∃ t2' F2', HRep home' (h2.put a ⟨.tree, ptr A', ptr P'⟩) r2 t2' ∧ TRep (h2.put a ⟨.tree, ptr A', ptr P'⟩) r2 t2' F2' ∧
      (∀ x, F2' x → h.next ≤ x ∨ F2 x) ∧ (t2' = t2 ∨ Ins t2 n v t2') := by
  have ha2 : h2.mem a = some ⟨.tree, ptr A, ptr P⟩ := (hm2 a _ _ hm hl).trans hm
  have fA : ∀ {A2}, Root4 h2 A2 → Root4 (h2.put a ⟨.tree, ptr A', ptr P'⟩) A2 := fun q => q.frame (by simp) fun x hx => by
    obtain ⟨d, u, v, e⟩ := cell32 q.rep hx
    rw [Heap.mem_put, if_neg]; rintro rfl; rw [e] at ha2; cases ha2
  have fP : ∀ {P2}, Root6 home' h2 P2 → Root6 home' (h2.put a ⟨.tree, ptr A', ptr P'⟩) P2 := fun q => q.frame (by simp) (fun x hx => by
    rw [Heap.mem_put, if_neg]; rintro rfl; have := q.rep.not_tree ha2; omega) fun _ _ => rfl
  have own : HRep home' (h2.put a ⟨.tree, ptr A', ptr P'⟩) (some a) (some ⟨erase A', mapT erase (erase P')⟩) :=
    ⟨a, A', P', rfl, by simp, by simp; omega, fA hA', fP hP', rfl⟩
  have trep : ∀ {a2 A2 P2}, (h2.put a ⟨.tree, ptr A', ptr P'⟩).mem a2 = some ⟨.tree, ptr A2, ptr P2⟩ → a2 < h2.next → Root4 h2 A2 → Root6 home' h2 P2 →
      TRep (h2.put a ⟨.tree, ptr A', ptr P'⟩) (some a2) (some ⟨erase A2, mapT erase (erase P2)⟩) (fun x => x = a2 ∨ 1 ≤ cnt x A2 ∨ 1 ≤ tot x P2) := fun {a2 A2 P2} e1 e2 e3 e4 =>
    ⟨a2, A2, P2, rfl, e1, by simpa using e2, ⟨(fA e3).rep, e3.wf, e3.one⟩, ⟨(fP e4).rep, e4.one⟩, rfl, fun _ => Iff.rfl⟩
  refine ⟨own, fun r2 t2 F2 hT hF => ?_⟩
  cases t2 with
  | none => exact ⟨none, F2, hT, hF, fun x => .inr, .inl rfl⟩
  | some t2 =>
    obtain ⟨a2, A2, P2, rfl, e2, l2, hA2, hP2, rfl, hF2⟩ := hT.foot hF
    have fin : ∀ {A2' : ATree (ND 32 V)} {P2' : ATree (ND 64 (AB V))}, (∀ x, 1 ≤ cnt x A2' → h.next ≤ x ∨ 1 ≤ cnt x A2) → (∀ x, 1 ≤ tot x P2' → h.next ≤ x ∨ 1 ≤ tot x P2) →
        ∀ x, (x = a2 ∨ 1 ≤ cnt x A2' ∨ 1 ≤ tot x P2') → h.next ≤ x ∨ F2 x := by
      intro A2' P2' c1 c2 x hx
      rw [hF2]
      rcases hx with rfl | hx | hx
      · exact .inr (.inl rfl)
      · exact (c1 x hx).imp_right fun q => .inr (.inl q)
      · exact (c2 x hx).imp_right fun q => .inr (.inr q)
    by_cases q : a2 = a
    · subst q
      rw [hm] at e2
      simp only [Option.some.injEq, Cell.mk.injEq, true_and] at e2
      have z1 := rep_unique hA.rep hA2.rep e2.1
      have z2 := rep6_unique hP.rep hP2.rep e2.2
      subst z1 z2
      exact ⟨_, _, own, trep (by simp) (by omega) hA' hP', fin cA cP, .inr hi⟩
    · obtain ⟨A2', P2', o1, o2, o3, o4, o5, o6, o7⟩ := ho A2 P2 hA2 hP2
      have e3 : (h2.put a ⟨.tree, ptr A', ptr P'⟩).mem a2 = some ⟨.tree, ptr A2', ptr P2'⟩ := by rw [Heap.mem_put, if_neg q, hm2 a2 _ _ e2 l2, e2, o1, o2]
      refine ⟨some ⟨erase A2', mapT erase (erase P2')⟩, _, ⟨a2, A2', P2', rfl, e3, by simp; omega, fA o3, fP o4, rfl⟩, trep e3 (by omega) o3 o4, fin o6 o7, ?_⟩
      rcases o5 with ⟨rfl, rfl⟩ | o5
      · exact .inl rfl
      · exact .inr o5

/-- What the in-place insertion leaves. -/
def Spread (home : Home) (h : Heap (UD V)) (a : Addr) (t : Option (Tree V)) (n : Option IPNet) (v : V) (h' : Heap (UD V)) : Prop :=
  ∃ home', (∀ x, x < h.next → home' x = home x) ∧ (∃ t', HRep home' h' (some a) t' ∧ Ins t n v t') ∧
    ∀ r2 t2 F2, HRep home h r2 t2 → TRep h r2 t2 F2 → ∃ t2' F2', HRep home' h' r2 t2' ∧ TRep h' r2 t2' F2' ∧ (∀ x, F2' x → h.next ≤ x ∨ F2 x) ∧
      (t2' = t2 ∨ Ins t2 n v t2')

section
variable {f : Nat} (hf : 66 ≤ f) {h : Heap (UD V)}
include hf

omit [Inhabited V] hf in
theorem tree_ne32 {A : ATree (ND 32 V)} (hA : Root4 h A) {x : Addr} {r s : Ptr} (e : h.mem x = some ⟨.tree, r, s⟩) : cnt x A = 0 := by
  refine Nat.eq_zero_of_not_pos fun q => ?_
  obtain ⟨d, _, _, e'⟩ := cell32 hA.rep q
  rw [e] at e'; cases e'

omit [Inhabited V] hf in
theorem n32_ne64 {A : ATree (ND 32 V)} (hA : Root4 h A) {P : ATree (ND 64 (AB V))} (hP : Rep6 h P) {x : Addr} (hx : 1 ≤ cnt x A) : tot x P = 0 := by
  obtain ⟨d, _, _, e'⟩ := cell32 hA.rep hx
  exact hP.not_n32 e'

/-- The nested tree has got a new root, no old node was written so far, and the tree is stored. -/
theorem retop_spread {home : Home} {h1 : Heap (UD V)} {a : Addr} {A : ATree (ND 32 V)} {P : ATree (ND 64 (AB V))} {n : IPNet} {v : V} {k : Pair64}
    (hm : h.mem a = some ⟨.tree, ptr A, ptr P⟩) (hl : a < h.next) (hA : Root4 h A) (hP : Root6 home h P) (e4 : v4Key n = none) (e6 : v6Pair n = some k)
    (hk : Kept h h1) {B B' : AB V} (hB' : Sub h1 B') (eB' : erase B' = Num.Insert (erase B) k.lsKey k.lsBits v)
    (hor : Num.ExactMatch (erase P) k.msKey k.msBits = some B ∨ (Num.ExactMatch (erase P) k.msKey k.msBits = none ∧ B = .nil))
    (cB : ∀ x, cnt x B' ≤ if h.next ≤ x then 1 else cnt x B) :
    wp (fun _ => True) (do
      let x ← on64s (InplaceInsertP f (ptr P) k.msKey k.msBits (ptr B'))
      setRoot64 (some a) x)
      (fun _ h' => Spread home h a (some ⟨erase A, mapT erase (erase P)⟩) (some n) v h') h1 := by
  have kn := hk.1
  have hP1 : Root6 home h1 P := hP.frame kn (fun x hx => hk.2 x (hP.rep.lt hx)) fun _ _ => rfl
  have cP : ∀ x, cnt x P ≤ 1 := fun x => by have := hP.one x; unfold tot at this; omega
  have hBk : ∀ x, 1 ≤ cnt x B → home x = some (Verif.sig k.msKey (clamp 64 k.msBits)) ∧ x < h.next := fun x hx => by
    rcases hor with eB | ⟨_, rfl⟩
    · obtain ⟨n, hn, e1, rfl, _⟩ := node_of_exactMatch hP.rep.wf eB
      exact ⟨e1 ▸ (hP.homed.2 n hn x hx).2, hP.rep.lt (by have := sub_lt_tot hn x; omega)⟩
    · simp at hx
  -- the insertion of the nested tree, into the trees that receive it
  let home' := fun x => if x < h.next then home x else if x < h1.next then some (Verif.sig k.msKey (clamp 64 k.msBits)) else none
  have ins : ∀ {h2 : Heap (UD V)} {P2 P2' : ATree (ND 64 (AB V))}, Root6 home h P2 → Rep6 h2 P2' → erase P2' = Num.Insert (erase P2) k.msKey k.msBits B' →
      (∀ x, cnt x P2' ≤ if h1.next ≤ x then 1 else cnt x P2) →
      (Num.ExactMatch (erase P2) k.msKey k.msBits = some B ∨ (Num.ExactMatch (erase P2) k.msKey k.msBits = none ∧ B = .nil)) →
      Root6 home' h2 P2' ∧ ∀ x, 1 ≤ tot x P2' → h.next ≤ x ∨ 1 ≤ tot x P2 := by
    intro h2 P2 P2' q1 q2 q3 q4 q5
    refine root6_insert q1 kn q2 q3 q4 (fun x hx => hB'.zero hx) (fun x => ?_) (fun x hx => if_pos hx) (fun x hx => ?_) fun x hx => ?_
    · have := cB x
      rcases q5 with q5 | ⟨_, rfl⟩
      · have := oldV_of q5 x; grind
      · simp only [cnt_nil] at this; grind
    · show (if x < h.next then home x else if x < h1.next then some (Verif.sig k.msKey (clamp 64 k.msBits)) else none) = none
      rw [if_neg (by omega), if_neg (by omega)]
    · show (if x < h.next then home x else if x < h1.next then some (Verif.sig k.msKey (clamp 64 k.msBits)) else none) = some (Verif.sig k.msKey (clamp 64 k.msBits))
      by_cases q : x < h.next
      · rw [if_pos q]
        have := cB x; rw [if_neg (by omega)] at this
        exact (hBk x (by omega)).1
      · rw [if_neg q, if_pos]
        exact Nat.not_le.1 fun z => by
          have := hB'.zero z
          omega
  have fun_ins : ∀ {A2 : ATree (ND 32 V)} {P2 P2' : ATree (ND 64 (AB V))}, erase P2' = Num.Insert (erase P2) k.msKey k.msBits B' →
      (Num.ExactMatch (erase P2) k.msKey k.msBits = some B ∨ (Num.ExactMatch (erase P2) k.msKey k.msBits = none ∧ B = .nil)) →
      Ins (some ⟨erase A2, mapT erase (erase P2)⟩) (some n) v (some ⟨erase A2, mapT erase (erase P2')⟩) := by
    intro A2 P2 P2' q1 q2
    refine ⟨some n, .inl rfl, ?_⟩
    simp only [UIP.InsertNet, e4, e6, Option.getD_some]
    rw [ExactMatch_map, q1, mapT_insert, eB']
    rcases q2 with q2 | ⟨q2, rfl⟩ <;> rw [q2] <;> rfl
  rw [wp_bind]
  have hv : ∀ u ∈ vals (Num.Insert (erase P) k.msKey k.msBits B'), Sub h1 u ∧ ∀ a, 1 ≤ cnt a P → cnt a u = 0 := by
    intro u hu
    rcases vals_insert _ _ u hu with rfl | rfl | q
    · refine ⟨hB', fun x hx => Nat.eq_zero_of_not_pos fun z => ?_⟩
      have q := hP.rep.lt (a := x) (by unfold tot; omega)
      have q2 := cB x
      rw [if_neg (by omega)] at q2
      have := (hBk x (by omega)).1
      rw [hP.homed.1 x hx] at this; cases this
    · exact ⟨⟨trivial, trivial⟩, fun _ _ => rfl⟩
    · refine ⟨hP1.rep.sub u q, fun x hx => Nat.eq_zero_of_not_pos fun z => ?_⟩
      obtain ⟨_, _, _, _, q⟩ := hP.homed.nested q z
      rw [hP.homed.1 x hx] at q; cases q
  have hh := wf_height hP.rep.wf
  have w1 := inp6_spec hf hP1.rep.rep hP.rep.wf cP k.msKey k.msBits B' hv
  have w2 := chg_spec k64s (f := f) hP1.rep.rep (by simpa using cP) (by simp; omega) k.msKey k.msBits (ptr B')
  rw [ptr_mapA] at w2
  refine wp_mono (fun _ _ => trivial) ?_ (wp_and w1 w2)
  rintro p h2 ⟨⟨P', rfl, h2', h3, h4, h5, h6⟩, hC⟩
  have hC := hC.imp_right (·.2)
  have tz : ∀ x r s, h.mem x = some ⟨.tree, r, s⟩ → x < h.next → h2.mem x = h.mem x := fun x r s e hx => by
    rw [h6 x (by omega) (by have := hP.rep.not_tree e; unfold tot at this; omega), hk.2 x hx]
  rw [wp_setRoot64 ((tz a _ _ hm hl).trans hm)]
  have hA2 : ∀ {A2}, Root4 h A2 → Root4 h2 A2 := fun {A2} q => q.frame (by omega) fun x hx => by
    rw [h6 x (by have := q.lt hx; omega) (by have := n32_ne64 q hP.rep hx; unfold tot at this; omega), hk.2 x (q.lt hx)]
  have fin := spread_done hm hl hA hP (hA2 hA) (ins hP h2' h3 h4 hor).1 (by omega) (fun _ => .inr) (ins hP h2' h3 h4 hor).2 tz (fun_ins h3 hor) fun A2 P2 qA qP => by
    have qP1 : Root6 home h1 P2 := qP.frame kn (fun x hx => hk.2 x (qP.rep.lt hx)) fun _ _ => rfl
    have hB2 : Sub h2 B' := Sub.frame hB' h5 fun x hx => by
      refine h6 x (Sub.lt hB' hx) (Nat.eq_zero_of_not_pos fun z => ?_)
      have q := hP.rep.lt (a := x) (by unfold tot; omega)
      have q2 := cB x
      rw [if_neg (by omega)] at q2
      have := (hBk x (by omega)).1
      rw [hP.homed.1 x z] at this; cases this
    rcases top_other h5 hP1.rep.rep hP.rep.wf hP.homed.1 qP1 hC hB2 with hs | ⟨P2', q1, q2, q3, q4, q5⟩
    · exact ⟨A2, P2, rfl, rfl, hA2 qA, qP.frame (by omega) (fun x hx => (hs x hx).trans (hk.2 x (qP.rep.lt hx))) (fun x hx => if_pos hx), .inl ⟨rfl, rfl⟩, fun _ => .inr, fun _ => .inr⟩
    · have hor2 : Num.ExactMatch (erase P2) k.msKey k.msBits = some B ∨ (Num.ExactMatch (erase P2) k.msKey k.msBits = none ∧ B = .nil) := by
        rcases hor with e | ⟨e, rfl⟩
        · rw [e] at q5
          cases e2 : Num.ExactMatch (erase P2) k.msKey k.msBits with
          | none => rw [e2] at q5; cases q5
          | some u =>
            rw [e2] at q5
            simp only [Option.map_some, Option.some.injEq] at q5
            rw [sub_unique (h := h) (qP.rep.sub _ (vals_ExactMatch e2)) (hP.rep.sub _ (vals_ExactMatch e)) q5]
            exact .inl rfl
        · rw [e] at q5
          cases e2 : Num.ExactMatch (erase P2) k.msKey k.msBits with
          | none => exact .inr ⟨rfl, rfl⟩
          | some u => rw [e2] at q5; cases q5
      exact ⟨A2, P2', rfl, q1, hA2 qA, (ins qP q2 q3 q4 hor2).1, .inr (fun_ins q3 hor2), fun _ => .inr, (ins qP q2 q3 q4 hor2).2⟩
  exact ⟨trivial, home', fun x hx => if_pos hx, ⟨_, fin.1, fun_ins h3 hor⟩, fin.2⟩

/-- An in-place insertion leaves every other tree as it is or makes the same insertion there. -/
theorem InplaceInsertNetP_spread {home : Home} {a : Addr} {t : Tree V} (hT : HRep home h (some a) (some t)) (n : Option IPNet) (v : V) :
    wp (fun _ => True) (InplaceInsertNetP f (some a) n v) (fun _ h' => Spread home h a (some t) n v h') h := by
  have hT0 := hT
  obtain ⟨a', A, P, ea, hm, hl, hA, hP, ht⟩ := hT
  cases ea
  have idle : ∀ n, UIP.InsertNet (some t) n v = some t → Spread home h a (some t) n v h := fun n e =>
    ⟨home, fun _ _ => rfl, ⟨some t, hT0, n, .inl rfl, e.symm⟩, fun r2 t2 F2 q q' => ⟨t2, F2, q, q', fun _ => .inr, .inl rfl⟩⟩
  unfold InplaceInsertNetP
  cases n with
  | none => exact idle none rfl
  | some n =>
    subst ht
    cases e4 : v4Key n with
    | some kb =>
      obtain ⟨key, bits⟩ := kb
      simp only [e4]
      rw [wp_bind, wp_rootsP hm, wp_bind]
      have hh := wf_height hA.wf
      refine wp_mono (fun _ _ => trivial) ?_ (wp_and (inp4_spec hf hA.rep hA.wf hA.one key bits v) (chg_spec k32 (f := f) hA.rep hA.one (by omega) key bits v))
      rintro p h2 ⟨⟨A', rfl, h2', h3, h4, h5, h6⟩, hC⟩
      have tz : ∀ x r s, h.mem x = some ⟨.tree, r, s⟩ → x < h.next → h2.mem x = h.mem x := fun x r s e hx => h6 x hx (tree_ne32 hA e)
      rw [wp_setRoot32 ((tz a _ _ hm hl).trans hm)]
      have hP2 : ∀ {P2}, Root6 home h P2 → Root6 home h2 P2 := fun {P2} q => q.frame h5 (fun x hx => h6 x (q.rep.lt hx) (Nat.eq_zero_of_not_pos fun z => by
        have := n32_ne64 hA q.rep z; omega)) fun _ _ => rfl
      have fun_ins : ∀ {A2 A2' : ATree (ND 32 V)} {P2 : ATree (ND 64 (AB V))}, erase A2' = Num.Insert (erase A2) key bits v →
          Ins (some ⟨erase A2, mapT erase (erase P2)⟩) (some n) v (some ⟨erase A2', mapT erase (erase P2)⟩) := by
        intro A2 A2' P2 q
        refine ⟨some n, .inl rfl, ?_⟩
        simp only [UIP.InsertNet, e4, Option.getD_some, q]
      have fin := spread_done hm hl hA hP ⟨h2', by rw [h3]; exact insert_wf' hA.wf _ _ _, fun x => by have := h4 x; have := hA.one x; grind⟩ (hP2 hP) h5
        (fun x hx => by have := h4 x; grind) (fun _ => .inr) tz (fun_ins h3) fun A2 P2 qA qP => by
        rcases hC with hs | ⟨_, c, hc⟩
        · exact ⟨A2, P2, rfl, rfl, qA.frame h5 fun x hx => hs x (qA.lt hx), hP2 qP, .inl ⟨rfl, rfl⟩, fun _ => .inr, fun _ => .inr⟩
        · by_cases hx : 1 ≤ cnt c A2
          · obtain ⟨A2', q1, q2, q3, q4, _⟩ := hc.other (clamp_le (bits : Int)) h5 hA.rep hA.wf qA.rep qA.wf qA.one hx
            have q4 : erase A2' = Num.Insert (erase A2) key bits v := q4
            exact ⟨A2', P2, q1, rfl, ⟨q2, by rw [q4]; exact insert_wf' qA.wf _ _ _, fun x => by have := q3 x; have := qA.one x; grind⟩, hP2 qP, .inr (fun_ins q4),
              fun x hx => by have := q3 x; grind, fun _ => .inr⟩
          · obtain ⟨_, _, _, _, _, _, _, _, _, _, hcm, _⟩ := hc
            exact ⟨A2, P2, rfl, rfl, qA.frame h5 fun x hx' => hcm x (qA.lt hx') (by rintro rfl; exact hx hx'), hP2 qP, .inl ⟨rfl, rfl⟩, fun _ => .inr, fun _ => .inr⟩
      exact ⟨trivial, home, fun _ _ => rfl, ⟨_, fin.1, fun_ins h3⟩, fin.2⟩
    | none =>
      simp only [e4]
      cases e6 : v6Pair n with
      | none =>
        refine idle (some n) ?_
        simp only [UIP.InsertNet, e4, e6]
      | some k =>
        simp only
        have kok := (IP.v6Pair_some e6).1
        have ck : clamp 64 (k.msBits : Int) = k.msBits := by have := kok.ms; unfold clamp; grind
        have cP : ∀ x, cnt x P ≤ 1 := fun x => by have := hP.one x; unfold tot at this; omega
        rw [wp_bind, wp_rootsP hm, wp_bind]
        refine wp_conseq (exact6_spec hf hP.rep k.msKey k.msBits) ?_
        rintro _ h' ⟨eh, rfl⟩
        have eh := eh.symm
        subst eh
        obtain ⟨B, hsub, hB, eB0, hor, ho⟩ := sub_found hP.rep k.msKey k.msBits
        have hh := wf_height hB.2
        rcases hor with eB | ⟨eB, rfl⟩
        · rw [eB]
          simp only [Option.map_some]
          rw [wp_bind]
          have mB : B ∈ vals (erase P) := vals_ExactMatch eB
          have tB : ∀ x, cnt x P + cnt x B ≤ tot x P := fun x => by
            have := sub_le_sum (cnt x) mB; unfold tot; omega
          have cB1 : ∀ x, cnt x B ≤ 1 := fun x => by have := tB x; have := hP.one x; omega
          have w2 := chg_spec k64 (f := f) hB.1 cB1 (by omega) k.lsKey k.lsBits v
          refine wp_mono (fun _ _ => trivial) ?_ (wp_and (inpB_spec hf hB cB1 k.lsKey k.lsBits v) w2)
          rintro p h1 ⟨⟨B', rfl, hB', eB', cB, kn, km⟩, hC⟩
          by_cases hne : ptr B' = ptr B
          · simp only [hne, ne_eq, not_true, if_false]
            have hC := hC.imp_right (·.2)
            obtain ⟨key, P', z0, zk, z1, z2, z3, z4⟩ := nested_root hP eB hB' hne cB kn km
            have tz : ∀ x r s, h.mem x = some ⟨.tree, r, s⟩ → x < h.next → h1.mem x = h.mem x := fun x r s e hx =>
              km x hx (by have := tB x; have := hP.rep.not_tree e; omega)
            have hA2 : ∀ {A2}, Root4 h A2 → Root4 h1 A2 := fun {A2} q => q.frame kn fun x hx =>
              km x (q.lt hx) (by have := tB x; have := n32_ne64 q hP.rep hx; omega)
            have noop : h1.put a ⟨.tree, ptr A, ptr P'⟩ = h1 := by
              have hm1 := (tz a _ _ hm hl).trans hm
              rw [z1]; rcases h1 with ⟨m, nx⟩
              simp only [Heap.put, Heap.mk.injEq, and_true]
              funext z
              by_cases q : z = a
              · subst q; simp at hm1; simp [hm1]
              · simp [q]
            have fun_ins : ∀ {A2 : ATree (ND 32 V)} {P2 P2' : ATree (ND 64 (AB V))} {B2 B2' : AB V} {key : BitVec 64},
                (∀ i, i < clamp 64 (k.msBits : Int) → key.getMsbD i = k.msKey.getMsbD i) → Num.ExactMatch (erase P2) key k.msBits = some B2 →
                erase B2' = Num.Insert (erase B2) k.lsKey k.lsBits v → erase P2' = Num.Insert (erase P2) key k.msBits B2' →
                Ins (some ⟨erase A2, mapT erase (erase P2)⟩) (some n) v (some ⟨erase A2, mapT erase (erase P2')⟩) := by
              intro A2 P2 P2' B2 B2' key q0 q1 q2 q3
              obtain ⟨n', g4, g6, gs⟩ := rekey e6 (key := key) (by rw [ck] at q0; exact q0)
              refine ⟨some n', gs, ?_⟩
              simp only [UIP.InsertNet, g4, g6, Option.getD_some]
              rw [ExactMatch_map, q1, q3, mapT_insert, q2]; rfl
            have fin := spread_done hm hl hA hP (hA2 hA) z3 kn (fun _ => .inr) z4 tz (fun_ins (A2 := A) z0 zk eB' z2) (fun A2 P2 qA qP => by
              rcases nested_other kn hP eB qP hC with hs | ⟨key, B2, B2', P2', q0, q1, q2, q3, q4, q5, q6⟩
              · exact ⟨A2, P2, rfl, rfl, hA2 qA, qP.frame kn hs (fun x hx => if_pos hx), .inl ⟨rfl, rfl⟩, fun _ => .inr, fun _ => .inr⟩
              · exact ⟨A2, P2', rfl, q3, hA2 qA, q5, .inr (fun_ins q0 q1 q2 q4), fun _ => .inr, q6⟩)
            rw [noop] at fin
            exact ⟨_, fun x hx => if_pos hx, ⟨_, fin.1, fun_ins z0 zk eB' z2⟩, fin.2⟩
          · simp only [ne_eq, hne, not_false_eq_true, if_true]
            have hk : Kept h h1 := ⟨kn, by
              rcases hC with hs | ⟨q, _⟩
              · exact hs
              · exact (hne q).elim⟩
            rw [wp_bind, wp_rootsP ((hk.2 a hl).trans hm)]
            exact retop_spread hf hm hl hA hP e4 e6 hk hB' eB' (.inl eB) cB
        · rw [eB]
          simp only [Option.map_none]
          rw [wp_bind, wp_rootsP hm, wp_bind]
          refine wp_mono (fun _ _ => trivial) ?_ (inpB_spec hf hB (by simp) k.lsKey k.lsBits v)
          rintro p h1 ⟨B', rfl, hB', eB', cB, kn, km⟩
          exact retop_spread hf hm hl hA hP e4 e6 ⟨kn, fun x hx => km x hx rfl⟩ hB' eB' (.inr ⟨eB, rfl⟩) cB
end

end Verif.UIPHeap
