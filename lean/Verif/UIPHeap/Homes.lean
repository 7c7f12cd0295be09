import Verif.UIPHeap.History
import Verif.IPHeap.Homes

/-!
# Where the nodes of IPv6 trees of the generated packages belong

As `IPHeap/Homes.lean`: a `node64s` is a node of `root64`, a `node64` belongs to the tree nested under one network of `root64` for good.
Here the copy-on-write methods are shown to keep this.
-/

namespace Verif.Num
variable {w : Nat} {V : Type}

/-- A node with a value is found. -/
theorem den_of_leaf {P : List Bool} {t : NTree w V} (h : WF P t) {n : ND w V} (hn : n ∈ nodes t) (hl : n.leaf = true) : den t n.sig = some n.value ∧ P <+: n.sig := by
  induction t generalizing P with
  | nil => cases hn
  | node m l r ihl ihr =>
    obtain ⟨h1, h2, h3, h4, h5⟩ := id h
    simp only [nodes, List.mem_cons, List.mem_append] at hn
    rw [den_node]
    rcases hn with rfl | hn | hn
    · simp [hl, h2]
    · obtain ⟨e1, e2⟩ := ihl h4 hn
      rw [if_neg (fun z => prefix_snoc_ne e2 z.2), e1]
      exact ⟨by simp, h2.trans ((List.prefix_append _ _).trans e2)⟩
    · obtain ⟨e1, e2⟩ := ihr h5 hn
      rw [if_neg (fun z => prefix_snoc_ne e2 z.2), h4.den_eq_none (fun z => by simpa using snoc_prefix_inj e2 z), e1]
      exact ⟨by simp, h2.trans ((List.prefix_append _ _).trans e2)⟩

theorem leaf_of_den {t : NTree w V} {q : List Bool} {v : V} (h : den t q = some v) : ∃ n ∈ nodes t, n.sig = q ∧ n.value = v ∧ n.leaf = true := by
  induction t with
  | nil => simp [den] at h
  | node m l r ihl ihr =>
    rw [den_node] at h
    split at h
    · rename_i e
      exact ⟨m, by simp [nodes], e.2.symm, by simpa using h, e.1⟩
    · cases el : den l q with
      | some u =>
        rw [el] at h
        obtain ⟨n, h1, h2⟩ := ihl (by simpa [el] using h)
        exact ⟨n, by simp [nodes, h1], h2⟩
      | none =>
        rw [el] at h
        obtain ⟨n, h1, h2⟩ := ihr (by simpa using h)
        exact ⟨n, by simp [nodes, h1], h2⟩

end Verif.Num

namespace Verif.UIPHeap
open Verif Verif.Heap Verif.Heap.Prog Verif.Heap.ATree Verif.Num Verif.NumHeap
open Verif.IP (v4Key v6Pair Pair64)
open Verif.UIP (Tree)

variable {V : Type}

/-- The network of `root64` a nested node belongs to; `none` for the nodes of `root64`. -/
abbrev Home := Addr → Option (List Bool)

/-- The node of the nested tree found for a key. -/
theorem node_of_exactMatch {t : NTree 64 (AB V)} (h : WF [] t) {k : BitVec 64} {b : Int} {B : AB V} (e : Num.ExactMatch t k b = some B) :
    ∃ n ∈ nodes t, n.sig = Verif.sig k (clamp 64 b) ∧ n.value = B ∧ n.leaf = true := by
  rw [exactMatch_eq_den h, ← clamp_eq] at e
  exact leaf_of_den e

theorem exactMatch_of_node {t : NTree 64 (AB V)} (h : WF [] t) {n : ND 64 (AB V)} (hn : n ∈ nodes t) (hl : n.leaf = true) {k : BitVec 64} {b : Int}
    (hk : Verif.sig k (clamp 64 b) = n.sig) : Num.ExactMatch t k b = some n.value := by
  rw [exactMatch_eq_den h, ← clamp_eq, hk, (den_of_leaf h hn hl).1]

/-- The nodes of `root64` are at home at `none`, those of a nested tree at its network. -/
def Homed (home : Home) (P : ATree (ND 64 (AB V))) : Prop :=
  (∀ x, 1 ≤ cnt x P → home x = none) ∧ ∀ n ∈ nodes (erase P), ∀ x, 1 ≤ cnt x n.value → n.leaf = true ∧ home x = some n.sig

/-- `root32` in memory. -/
structure Root4 (h : Heap (UD V)) (A : ATree (ND 32 V)) : Prop where
  rep : Rep (k32.view h) A
  wf : WF [] (erase A)
  one : ∀ x, cnt x A ≤ 1

/-- `root64` in memory, at home. -/
structure Root6 (home : Home) (h : Heap (UD V)) (P : ATree (ND 64 (AB V))) : Prop where
  rep : Rep6 h P
  one : ∀ x, tot x P ≤ 1
  homed : Homed home P

/-- The object in memory, with its nodes at home. -/
def HRep (home : Home) (h : Heap (UD V)) (r : Ptr) : Option (Tree V) → Prop
  | none => r = none
  | some t => ∃ a A P, r = some a ∧ h.mem a = some ⟨.tree, ptr A, ptr P⟩ ∧ a < h.next ∧ Root4 h A ∧ Root6 home h P ∧ t = ⟨erase A, mapT erase (erase P)⟩

theorem HRep.rep {home : Home} {h : Heap (UD V)} {r : Ptr} {t : Option (Tree V)} (hT : HRep home h r t) : ∃ F, TRep h r t F := by
  cases t with
  | none => exact ⟨fun _ => False, hT, fun _ => id⟩
  | some t =>
    obtain ⟨a, A, P, h1, h2, h3, h4, h5, h6⟩ := hT
    exact ⟨_, a, A, P, h1, h2, h3, ⟨h4.rep, h4.wf, h4.one⟩, ⟨h5.rep, h5.one⟩, h6, fun _ => Iff.rfl⟩

theorem Root4.frame {h h' : Heap (UD V)} {A : ATree (ND 32 V)} (hA : Root4 h A) (hn : h.next ≤ h'.next) (hm : ∀ a, 1 ≤ cnt a A → h'.mem a = h.mem a) : Root4 h' A :=
  ⟨rep_frame hA.rep hn fun a ha => k32.view_frame (hm a ha), hA.wf, hA.one⟩

theorem Root4.lt {h : Heap (UD V)} {A : ATree (ND 32 V)} (hA : Root4 h A) {a : Addr} (ha : 1 ≤ cnt a A) : a < h.next := rep_lt hA.rep ha

theorem sub_lt_tot {P : ATree (ND 64 (AB V))} {n : ND 64 (AB V)} (hn : n ∈ nodes (erase P)) (x : Addr) : cnt x n.value ≤ tot x P := by
  refine cntSub_le_tot ?_ x
  rw [vals_nodes]
  exact List.mem_map_of_mem hn

theorem Homed.frame {home home' : Home} {h : Heap (UD V)} {P : ATree (ND 64 (AB V))} (hP : Rep6 h P) (hH : Homed home P)
    (he : ∀ x, x < h.next → home' x = home x) : Homed home' P := by
  refine ⟨fun x hx => ?_, fun n hn x hx => ?_⟩
  · rw [he x (hP.lt (by unfold tot; omega)), hH.1 x hx]
  · obtain ⟨q1, q2⟩ := hH.2 n hn x hx
    refine ⟨q1, ?_⟩
    rw [he x (hP.lt (by have := sub_lt_tot hn x; omega)), q2]

theorem Root6.frame {home home' : Home} {h h' : Heap (UD V)} {P : ATree (ND 64 (AB V))} (hP : Root6 home h P) (hn : h.next ≤ h'.next)
    (hm : ∀ a, 1 ≤ tot a P → h'.mem a = h.mem a) (he : ∀ x, x < h.next → home' x = home x) : Root6 home' h' P :=
  ⟨hP.rep.frame hn hm, hP.one, hP.homed.frame hP.rep he⟩

/-- Nothing that was there has changed. -/
theorem HRep.frame {home home' : Home} {h h' : Heap (UD V)} {r : Ptr} {t : Option (Tree V)} (hT : HRep home h r t) (hk : Kept h h')
    (he : ∀ x, x < h.next → home' x = home x) : HRep home' h' r t := by
  cases t with
  | none => exact hT
  | some t =>
    obtain ⟨a, A, P, h1, h2, h3, h4, h5, h6⟩ := hT
    exact ⟨a, A, P, h1, by rw [hk.2 a h3, h2], Nat.lt_of_lt_of_le h3 hk.1, h4.frame hk.1 fun x hx => hk.2 x (h4.lt hx),
      h5.frame hk.1 (fun x hx => hk.2 x (h5.rep.lt hx)) he, h6⟩

/-- The roots of an object. -/
theorem HRep.roots {home : Home} {h : Heap (UD V)} {r : Ptr} {t : Option (Tree V)} (hT : HRep home h r t) :
    ∃ A P, (∀ W Q, Q (ptr A, ptr P) h → wp W (rootsOrNilP r) Q h) ∧ (r ≠ none → ∀ h', Kept h h' → ∀ W Q, Q (ptr A, ptr P) h' → wp W (rootsP r) Q h') ∧
      Root4 h A ∧ Root6 home h P ∧ t.getD ⟨.nil, .nil⟩ = ⟨erase A, mapT erase (erase P)⟩ := by
  cases t with
  | none =>
    have : r = none := hT
    subst this
    exact ⟨.nil, .nil, fun W Q q => wp_rootsOrNilP_none.2 q, fun q => (q rfl).elim, ⟨trivial, trivial, by simp⟩,
      ⟨rep6_nil h, by simp [tot], by simp, by simp [nodes]⟩, rfl⟩
  | some t =>
    obtain ⟨b, A, P, rfl, h5, h1, h2, h3, h9⟩ := hT
    exact ⟨A, P, fun W Q q => (wp_rootsOrNilP_some h5).2 q, fun _ h' hk W Q q => (wp_rootsP ((hk.2 b h1).trans h5)).2 q, h2, h3, h9⟩

/-- A new `Tree` cell for two trees. -/
theorem wp_mkH {W : Addr → Prop} {home : Home} {h : Heap (UD V)} {A : ATree (ND 32 V)} {P : ATree (ND 64 (AB V))} (hA : Root4 h A) (hP : Root6 home h P) :
    wp W (newTreeP (ptr A) (ptr P)) (fun r h' => HRep home h' r (some ⟨erase A, mapT erase (erase P)⟩)) h := by
  rw [wp_newTreeP]
  refine ⟨h.next, A, P, rfl, by simp, by simp, ⟨rep4_push hA.rep _, hA.wf, hA.one⟩, ⟨hP.rep.push _, hP.one, hP.homed⟩, rfl⟩

/-- `root64` after an insertion, by any tree that makes it from nodes of the old one. -/
theorem root6_insert {home home2 : Home} {h0 h1 h2 : Heap (UD V)} {P P' : ATree (ND 64 (AB V))} {k : BitVec 64} {b : Int} {v : AB V} (hR : Root6 home h0 P)
    (h01 : h0.next ≤ h1.next) (hP' : Rep6 h2 P') (he : erase P' = Num.Insert (erase P) k b v) (hc : ∀ x, cnt x P' ≤ if h1.next ≤ x then 1 else cnt x P)
    (hz : ∀ x, h1.next ≤ x → cnt x v = 0) (hv : ∀ x, cnt x v ≤ if h0.next ≤ x then 1 else oldV (cnt x) (erase P) k (clamp 64 b))
    (hh : ∀ x, x < h0.next → home2 x = home x) (hn : ∀ x, h1.next ≤ x → home2 x = none)
    (hs : ∀ x, 1 ≤ cnt x v → home2 x = some (Verif.sig k (clamp 64 b))) : Root6 home2 h2 P' ∧ ∀ x, 1 ≤ tot x P' → h0.next ≤ x ∨ 1 ≤ tot x P := by
  have hT : ∀ x, tot x P' ≤ if h0.next ≤ x then 1 else tot x P := fun x => by
    have q1 := sumV_insert (cnt x) rfl hR.rep.wf (c := ⟨k, clamp 64 b, true, v⟩) (clamp_le b)
    simp only at q1
    have e : sumV (cnt x) (erase P') = sumV (cnt x) (insert (erase P) ⟨k, clamp 64 b, true, v⟩) := by rw [he]; rfl
    have q2 := hc x; have q3 := hv x; have q4 := hz x; have q5 := hR.one x
    have q6 := fun q => hR.rep.zero (a := x) q
    unfold tot at *
    rw [e]
    by_cases c1 : h1.next ≤ x
    · have c0 : h0.next ≤ x := by omega
      have := q6 c0; have := q4 c1
      simp only [c0, c1, if_true] at *
      omega
    · by_cases c0 : h0.next ≤ x
      · have := q6 c0
        simp only [c0, c1, if_true, if_false] at *
        omega
      · simp only [c0, c1, if_false] at *
        omega
  refine ⟨⟨hP', fun x => ?_, fun x hx => ?_, fun n hmem x hx => ?_⟩, fun x hx => ?_⟩
  · have := hT x; have := hR.one x; grind
  · have q := hc x
    by_cases c1 : h1.next ≤ x
    · exact hn x c1
    · rw [if_neg c1] at q
      have q : 1 ≤ cnt x P := by omega
      rw [hh x (hR.rep.lt (by unfold tot; omega)), hR.homed.1 x q]
  · rw [he] at hmem
    rcases nodes_insert _ _ n hmem with rfl | e | q
    · exact ⟨rfl, hs x hx⟩
    · rw [e] at hx
      have hx : 1 ≤ cnt x (.nil : AB V) := hx
      simp at hx
    · obtain ⟨q1, q2⟩ := hR.homed.2 n q x hx
      refine ⟨q1, ?_⟩
      rw [hh x (hR.rep.lt (by have := sub_lt_tot q x; omega)), q2]
  · have := hT x; grind

section
variable {f : Nat} (hf : 66 ≤ f) {h : Heap (UD V)}
include hf

/-- Insert into `root64`, with the nodes of its own. -/
theorem ins6_cnt {P : ATree (ND 64 (AB V))} (hP : Rep6 h P) (k : BitVec 64) (b : Int) (v : AB V) (hv : Sub h v) :
    wp (fun a => h.next ≤ a) (on64s (InsertP f (ptr P) k b (ptr v))) (fun p h' => ∃ P', p = ptr P' ∧ Rep6 h' P' ∧
      erase P' = Num.Insert (erase P) k b v ∧ (∀ x, cnt x P' ≤ if h.next ≤ x then 1 else cnt x P) ∧ Kept h h') h := by
  have := wf_height hP.wf
  refine wp_conseq (wp_and (ins6_spec hf hP k b v hv) (on_spec k64s (InsertA_spec (g := ptr) rfl (by omega) hP.rep k b v))) ?_
  rintro p h' ⟨⟨P', rfl, h2, h3, _, h5⟩, ⟨Q, q1, q2, _, q4⟩, _⟩
  have e := rep_unique h2.rep q2 (by simpa using q1)
  refine ⟨P', rfl, h2, h3, fun x => ?_, h5⟩
  have e := congrArg (cnt x) e
  simp only [cnt_mapA] at e
  rw [e]; exact q4 x

theorem del6_cnt {P : ATree (ND 64 (AB V))} (hP : Rep6 h P) (k : BitVec 64) (b : Int) :
    wp (fun a => h.next ≤ a) (on64s (DeleteP f (ptr P) k b)) (fun r h' => ∃ P', r.1 = ptr P' ∧ Rep6 h' P' ∧
      (erase P', r.2) = Num.Delete (erase P) k b ∧ (∀ x, tot x P' ≤ if h.next ≤ x then 1 else tot x P) ∧
      (∀ x, cnt x P' ≤ if h.next ≤ x then 1 else cnt x P) ∧ Kept h h') h := by
  have := wf_height hP.wf
  refine wp_conseq (wp_and (del6_spec hf hP k b) (on_spec k64s (DeleteA_spec (g := ptr) (by omega) hP.rep k b))) ?_
  rintro p h' ⟨⟨P', h1, h2, h3, h4, h5⟩, ⟨Q, q1, q2, _, q4⟩, _⟩
  have e := rep_unique h2.rep q2 (by simp only [ptr_mapA]; rw [← h1, q1])
  refine ⟨P', h1, h2, h3, h4, fun x => ?_, h5⟩
  have e := congrArg (cnt x) e
  simp only [cnt_mapA] at e
  rw [e]; exact q4 x

omit hf in
/-- `root64` after a deletion. -/
theorem root6_delete {home : Home} {h0 h1 h2 : Heap (UD V)} {P P' : ATree (ND 64 (AB V))} {k : BitVec 64} {b : Int} (hR : Root6 home h0 P) (h01 : h0.next ≤ h1.next)
    (hP' : Rep6 h2 P') (he : erase P' = (Num.Delete (erase P) k b).1) (ht : ∀ x, tot x P' ≤ if h1.next ≤ x then 1 else tot x P) (hc : ∀ x, cnt x P' ≤ if h1.next ≤ x then 1 else cnt x P) :
    Root6 (fun x => if x < h0.next then home x else none) h2 P' := by
  refine ⟨hP', fun x => ?_, fun x hx => ?_, fun n hmem x hx => ?_⟩
  · have := ht x; have := hR.one x; grind
  · show (if x < h0.next then home x else none) = none
    split
    · refine hR.homed.1 x ?_
      have := hc x; grind
    · rfl
  · rw [he] at hmem
    have q := nodes_del _ _ _ n hmem
    obtain ⟨q1, q2⟩ := hR.homed.2 n q x hx
    refine ⟨q1, ?_⟩
    show (if x < h0.next then home x else none) = _
    rw [if_pos (hR.rep.lt (by have := sub_lt_tot q x; omega)), q2]

/-- Replacing the tree nested under a key: the new one has fresh nodes and nodes of the old one. -/
theorem resub_homes {home : Home} {h1 : Heap (UD V)} {P : ATree (ND 64 (AB V))} (hP : Root6 home h P) (hk : Kept h h1) {k : BitVec 64} {b : Int} {B B' : AB V}
    (hB' : Sub h1 B') (ho : ∀ x, cnt x B ≤ oldV (cnt x) (erase P) k (clamp 64 b))
    (hB : Num.ExactMatch (erase P) k b = some B ∨ B = .nil) (cB : ∀ x, cnt x B' ≤ if h.next ≤ x then 1 else cnt x B) :
    wp (fun a => h.next ≤ a) (on64s (InsertP f (ptr P) k b (ptr B'))) (fun p h' => ∃ P' home', p = ptr P' ∧
      (∀ x, x < h.next → home' x = home x) ∧ Root6 home' h' P' ∧ erase P' = Num.Insert (erase P) k b B' ∧ Kept h h') h1 := by
  have hP1 : Rep6 h1 P := hP.rep.frame hk.1 fun a ha => hk.2 a (hP.rep.lt ha)
  refine wp_mono (W := fun a => h1.next ≤ a) (fun a ha => Nat.le_trans hk.1 ha) ?_ (ins6_cnt hf hP1 k b B' hB')
  rintro p h' ⟨P', rfl, h2, h3, h4, h5⟩
  refine ⟨P', fun x => if x < h.next then home x else if x < h1.next then some (Verif.sig k (clamp 64 b)) else none, rfl, fun x hx => if_pos hx, ?_, h3,
    Nat.le_trans hk.1 h5.1, fun a ha => (h5.2 a (Nat.lt_of_lt_of_le ha hk.1)).trans (hk.2 a ha)⟩
  refine (root6_insert hP hk.1 h2 h3 h4 (fun x hx => hB'.zero hx) (fun x => ?_) (fun x hx => if_pos hx) (fun x hx => ?_) fun x hx => ?_).1
  · have := cB x; have := ho x; grind
  · have := hk.1
    show (if x < h.next then home x else if x < h1.next then some (Verif.sig k (clamp 64 b)) else none) = none
    rw [if_neg (by omega), if_neg (by omega)]
  · show (if x < h.next then home x else if x < h1.next then some (Verif.sig k (clamp 64 b)) else none) = some (Verif.sig k (clamp 64 b))
    by_cases q : x < h.next
    · rw [if_pos q]
      have q1 : 1 ≤ cnt x B := by have := cB x; rw [if_neg (by omega)] at this; omega
      rcases hB with e | rfl
      · obtain ⟨nd, hn, e1, rfl, _⟩ := node_of_exactMatch hP.rep.wf e
        exact e1 ▸ (hP.homed.2 nd hn x q1).2
      · simp at q1
    · rw [if_neg q, if_pos]
      exact Nat.not_le.1 fun z => by
        have := hB'.zero z
        omega

theorem InsertNetP_homes [Inhabited V] {home : Home} {r : Ptr} {t : Option (Tree V)} (hT : HRep home h r t) (n : Option IPNet) (v : V) :
    wp (fun a => h.next ≤ a) (InsertNetP f r n v) (fun r' h' => ∃ home', (∀ x, x < h.next → home' x = home x) ∧ HRep home' h' r' (UIP.InsertNet t n v)) h := by
  cases n with
  | none => exact ⟨home, fun _ _ => rfl, hT⟩
  | some n =>
    obtain ⟨A, P, hr, _, hA, hP, ht⟩ := hT.roots
    simp only [UIP.InsertNet, ht]
    unfold InsertNetP
    simp only
    rw [wp_bind]
    apply hr
    cases e4 : v4Key n with
    | some kb =>
      obtain ⟨key, bits⟩ := kb
      simp only
      rw [wp_bind]
      refine wp_conseq (ins4_spec hf hA.rep hA.wf key bits v) ?_
      rintro p h' ⟨A', rfl, h2, h3, h4, h5, h6⟩
      rw [← h3]
      refine wp_conseq (wp_mkH ⟨h2, ?_, fun x => ?_⟩ (hP.frame h5 (fun a ha => h6 a (hP.rep.lt ha)) fun _ _ => rfl)) fun r' h' q => ⟨home, fun _ _ => rfl, q⟩
      · rw [h3]; exact insert_wf' hA.wf _ _ _
      · have := h4 x; have := hA.one x; grind
    | none =>
      simp only
      cases e6 : v6Pair n with
      | none => exact ⟨home, fun _ _ => rfl, hT⟩
      | some k =>
        simp only
        obtain ⟨B, hsub, hB, eB0, hor, ho⟩ := sub_found hP.rep k.msKey k.msBits
        rw [wp_bind]
        refine wp_conseq (exact6_spec hf hP.rep k.msKey k.msBits) ?_
        rintro _ _ ⟨rfl, rfl⟩
        rw [wp_bind, hsub]
        refine wp_conseq (insB_spec hf hB k.lsKey k.lsBits v) ?_
        rintro p h1 ⟨B', rfl, hB', eB, cB, kB⟩
        rw [wp_bind]
        refine wp_conseq (resub_homes hf hP kB hB' ho (hor.imp_right fun q => q.2) cB) ?_
        rintro p h' ⟨P', home', rfl, hh, h2, h3, h5⟩
        rw [eB0, ← eB, ← mapT_insert, ← h3]
        exact wp_conseq (wp_mkH (hA.frame h5.1 fun a ha => h5.2 a (hA.lt ha)) h2) fun r' h' q => ⟨home', hh, q⟩

theorem DeleteByNetP_homes {home : Home} {r : Ptr} {t : Option (Tree V)} (hT : HRep home h r t) (n : Option IPNet) :
    wp (fun a => h.next ≤ a) (DeleteByNetP f r n) (fun r' h' => r'.2 = (UIP.DeleteByNet t n).2 ∧
      ∃ home', (∀ x, x < h.next → home' x = home x) ∧ HRep home' h' r'.1 (UIP.DeleteByNet t n).1) h := by
  unfold DeleteByNetP
  cases t with
  | none =>
    have : r = none := hT
    subst this
    exact ⟨rfl, home, fun _ _ => rfl, hT⟩
  | some t =>
    have hr0 : r ≠ none := by obtain ⟨_, _, _, rfl, _⟩ := hT; simp
    simp only [hr0, if_false]
    cases n with
    | none => exact ⟨rfl, home, fun _ _ => rfl, hT⟩
    | some n =>
      obtain ⟨A, P, _, hr, hA, hP, ht⟩ := hT.roots
      have hr := hr hr0
      simp only [Option.getD_some] at ht
      simp only [UIP.DeleteByNet]
      have t4 : t.root32 = erase A := congrArg Tree.root32 ht
      have t6 : t.root64 = mapT erase (erase P) := congrArg Tree.root64 ht
      cases e4 : v4Key n with
      | some kb =>
        obtain ⟨key, bits⟩ := kb
        simp only
        rw [wp_bind]
        apply hr h ⟨Nat.le_refl _, fun _ _ => rfl⟩
        rw [wp_bind]
        refine wp_conseq (del4_spec hf hA.rep hA.wf key bits) ?_
        rintro ⟨p, d⟩ h' ⟨A', h1, h2, h3, h4, h5, h6⟩
        simp only at h1 h3; subst h1
        rw [t4, t6, ← h3]
        cases d with
        | false =>
          exact ⟨rfl, home, fun _ _ => rfl, hT.frame ⟨h5, h6⟩ fun _ _ => rfl⟩
        | true =>
          simp only [if_true]
          rw [wp_bind]
          apply hr h' ⟨h5, h6⟩
          rw [wp_bind]
          refine wp_conseq (wp_mkH ⟨h2, ?_, fun x => ?_⟩ (hP.frame h5 (fun a ha => h6 a (hP.rep.lt ha)) fun _ _ => rfl)) fun r' h' q => ⟨rfl, home, fun _ _ => rfl, q⟩
          · rw [show erase A' = _ from congrArg Prod.fst h3]; exact delete_wf' hA.wf _ _
          · have := h4 x; have := hA.one x; grind
      | none =>
        simp only
        cases e6 : v6Pair n with
        | none => exact ⟨rfl, home, fun _ _ => rfl, hT⟩
        | some k =>
          simp only
          rw [wp_bind]
          apply hr h ⟨Nat.le_refl _, fun _ _ => rfl⟩
          rw [wp_bind]
          refine wp_conseq (exact6_spec hf hP.rep k.msKey k.msBits) ?_
          rintro _ h' ⟨eh, rfl⟩
          have eh := eh.symm
          subst eh
          rw [t4, t6]
          obtain ⟨B, hsub, hB, eB0, hor, ho⟩ := sub_found hP.rep k.msKey k.msBits
          have hEM := ExactMatch_map (erase : AB V → _) (erase P) k.msKey k.msBits
          have hor' := hor.imp_right fun q => q.2
          rcases hor with eM | ⟨eM, _⟩
          · rw [eM] at hEM ⊢
            rw [hEM]
            simp only [Option.map_some]
            rw [wp_bind]
            refine wp_conseq (delB_spec hf hB k.lsKey k.lsBits) ?_
            rintro ⟨p, d⟩ h1 ⟨B', e1, hB', eB, cB, kB⟩
            simp only at e1 eB; subst e1
            rw [← eB]
            cases d with
            | false =>
              exact ⟨rfl, home, fun _ _ => rfl, hT.frame kB fun _ _ => rfl⟩
            | true =>
              simp only [if_true]
              rw [wp_bind]
              apply hr h1 kB
              cases B' with
              | nil =>
                simp only [erase_nil, BTree.isNil, if_true, ptr_nil]
                rw [wp_bind]
                have hP1 : Rep6 h1 P := hP.rep.frame kB.1 fun a ha => kB.2 a (hP.rep.lt ha)
                refine wp_mono (W := fun a => h1.next ≤ a) (fun a ha => Nat.le_trans kB.1 ha) ?_ (del6_cnt hf hP1 k.msKey k.msBits)
                rintro ⟨p, d⟩ h' ⟨P', h1', h2, h3, h4, h4', h5, h6⟩
                simp only at h1' h3; subst h1'
                have h3 : erase P' = _ := congrArg Prod.fst h3
                simp only
                rw [wp_bind, Delete_map, ← h3]
                exact wp_conseq (wp_mkH (hA.frame (Nat.le_trans kB.1 h5) fun a ha => (h6 a (Nat.lt_of_lt_of_le (hA.lt ha) kB.1)).trans (kB.2 a (hA.lt ha)))
                  (root6_delete hP kB.1 h2 h3 h4 h4')) fun r' h' q => ⟨rfl, _, fun x hx => if_pos hx, q⟩
              | node ad l r' =>
                simp only [erase_node, BTree.isNil, Bool.false_eq_true, if_false, ptr_node, reduceCtorEq]
                rw [wp_bind, ← ptr_node ad l r']
                refine wp_conseq (resub_homes hf hP kB hB' ho hor' cB) ?_
                rintro p h' ⟨P', home', rfl, hh, h2, h3, h5⟩
                rw [wp_bind, ← erase_node ad, ← mapT_insert, ← h3]
                exact wp_conseq (wp_mkH (hA.frame h5.1 fun a ha => h5.2 a (hA.lt ha)) h2) fun r' h' q => ⟨rfl, home', hh, q⟩
          · rw [eM] at hEM ⊢
            rw [hEM]
            simp only [Option.map_none]
            exact ⟨rfl, home, fun _ _ => rfl, hT⟩
end

end Verif.UIPHeap
