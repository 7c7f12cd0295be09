import Verif.UIPHeap.Refine
import Verif.Num.Same
import Verif.Num.Misc

/-! # `InplaceInsertNet` of the generated IP trees on memory

When the node of the nested tree's root stays, `root64` is not written, so its node keeps the key it had: the tree is then the one
`InsertNet` makes for another spelling of the same network (`SameNet`). -/

namespace Verif.UIPHeap
open Verif Verif.Heap Verif.Heap.Prog Verif.Heap.ATree Verif.Num Verif.NumHeap
open Verif.IP (v4Key v6Pair Pair64 unpack64)
open Verif.UIP (Tree)

variable {V : Type}

theorem rep_cell {D : Type} {h : Heap D} {t : ATree D} (ht : Rep h t) {a : Addr} (ha : 1 ≤ cnt a t) : ∃ c, h.mem a = some c := by
  induction t with
  | nil => simp at ha
  | node ad l r ihl ihr =>
    obtain ⟨h1, h2, h3, h4⟩ := ht
    simp only [cnt_node] at ha
    by_cases e : ad.1 = a
    · subst e; exact ⟨_, by assumption⟩
    · by_cases q : 1 ≤ cnt a l
      · exact ihl (by assumption) q
      · refine ihr (by assumption) ?_
        grind

theorem cell32 {h : Heap (UD V)} {A : ATree (ND 32 V)} (hA : Rep (k32.view h) A) {a : Addr} (ha : 1 ≤ cnt a A) :
    ∃ d x y, h.mem a = some ⟨.n32 d, x, y⟩ := by
  obtain ⟨c, hc⟩ := rep_cell hA ha
  exact ⟨_, _, _, (k32.view_mem).1 hc⟩

theorem cell64s {h : Heap (UD V)} {P : ATree (ND 64 (AB V))} (hP : Rep (k64s.view h) (mapA ptr P)) {a : Addr} (ha : 1 ≤ cnt a P) :
    ∃ d x y, h.mem a = some ⟨.n64s d, x, y⟩ := by
  obtain ⟨c, hc⟩ := rep_cell hP (a := a) (by simpa using ha)
  exact ⟨_, _, _, (k64s.view_mem).1 hc⟩

theorem cell64 {h : Heap (UD V)} {B : AB V} (hB : Rep (k64.view h) B) {a : Addr} (ha : 1 ≤ cnt a B) :
    ∃ d x y, h.mem a = some ⟨.n64 d, x, y⟩ := by
  obtain ⟨c, hc⟩ := rep_cell hB ha
  exact ⟨_, _, _, (k64.view_mem).1 hc⟩

theorem sum_pos {l : List (AB V)} {x : Addr} (h : 1 ≤ (l.map (cnt x)).sum) : ∃ v ∈ l, 1 ≤ cnt x v := by
  induction l with
  | nil => simp at h
  | cons a l ih =>
    by_cases q : 1 ≤ cnt x a
    · exact ⟨a, by simp, q⟩
    · obtain ⟨v, hv, hx⟩ := ih (by simp at h; omega)
      exact ⟨v, by simp [hv], hx⟩

theorem Rep6.cell {h : Heap (UD V)} {P : ATree (ND 64 (AB V))} (hP : Rep6 h P) {a : Addr} (ha : 1 ≤ tot a P) :
    (∃ d x y, h.mem a = some ⟨.n64 d, x, y⟩) ∨ ∃ d x y, h.mem a = some ⟨.n64s d, x, y⟩ := by
  by_cases q : 1 ≤ cnt a P
  · exact .inr (cell64s hP.rep q)
  · have : 1 ≤ sumV (cnt a) (erase P) := by unfold tot at ha; omega
    rw [sumV_vals] at this
    obtain ⟨v, hv, hx⟩ := sum_pos this
    exact .inl (cell64 (hP.sub _ hv).1 hx)

theorem Rep6.not_tree {h : Heap (UD V)} {P : ATree (ND 64 (AB V))} (hP : Rep6 h P) {a : Addr} {x y : Ptr} (ha : h.mem a = some ⟨.tree, x, y⟩) : tot a P = 0 := by
  refine Nat.eq_zero_of_not_pos fun q => ?_
  rcases hP.cell q with ⟨d, _, _, e⟩ | ⟨d, _, _, e⟩ <;> (rw [e] at ha; cases ha)

theorem Rep6.not_n32 {h : Heap (UD V)} {P : ATree (ND 64 (AB V))} (hP : Rep6 h P) {a : Addr} {d : ND 32 V} {x y : Ptr} (ha : h.mem a = some ⟨.n32 d, x, y⟩) : tot a P = 0 := by
  refine Nat.eq_zero_of_not_pos fun q => ?_
  rcases hP.cell q with ⟨d, _, _, e⟩ | ⟨d, _, _, e⟩ <;> (rw [e] at ha; cases ha)

/-- Storing the roots into the `Tree` cell. -/
theorem inp_done {h0 h : Heap (UD V)} {F : Addr → Prop} {A : ATree (ND 32 V)} {P : ATree (ND 64 (AB V))} {a : Addr} {x y : Ptr}
    (ha : h.mem a = some ⟨.tree, x, y⟩) (hl : a < h.next) (hF : F a) (hA : Rep (k32.view h) A ∧ WF [] (erase A) ∧ ∀ x, cnt x A ≤ 1)
    (hP : Rep6 h P ∧ ∀ x, tot x P ≤ 1)
    (fa : ∀ x, 1 ≤ cnt x A → h0.next ≤ x ∨ F x) (fp : ∀ x, 1 ≤ tot x P → h0.next ≤ x ∨ F x) :
    ∃ F', TRep (h.put a ⟨.tree, ptr A, ptr P⟩) (some a) (some ⟨erase A, mapT erase (erase P)⟩) F' ∧ ∀ x, F' x → h0.next ≤ x ∨ F x := by
  refine ⟨fun x => x = a ∨ 1 ≤ cnt x A ∨ 1 ≤ tot x P, ⟨a, A, P, rfl, by simp, by simpa using hl, ⟨?_, hA.2⟩, ⟨?_, hP.2⟩, rfl, fun _ => Iff.rfl⟩, ?_⟩
  · refine rep_frame hA.1 (by simp) fun b hb => k32.view_frame ?_
    obtain ⟨d, u, v, e⟩ := cell32 hA.1 hb
    rw [Heap.mem_put, if_neg]; rintro rfl; rw [e] at ha; cases ha
  · refine hP.1.frame (by simp) fun b hb => ?_
    rw [Heap.mem_put, if_neg]; rintro rfl; have := hP.1.not_tree ha; omega
  · rintro x (rfl | q | q)
    · exact .inr hF
    · exact fa x q
    · exact fp x q

/-- Two spellings of one network. -/
def SameNet (n n' : Option IPNet) : Prop :=
  n' = n ∨ ∃ m m', n = some m ∧ n' = some m' ∧ ∀ g p, IsNet m g p ↔ IsNet m' g p

/-- Bits after the mask can be changed. -/
theorem rekey {n : IPNet} {k : Pair64} (h6 : v6Pair n = some k) {key : BitVec 64} (hk : ∀ i, i < k.msBits → key.getMsbD i = k.msKey.getMsbD i) :
    ∃ n', v4Key n' = none ∧ v6Pair n' = some { k with msKey := key } ∧ SameNet (some n) (some n') := by
  obtain ⟨ok, hn⟩ := IP.v6Pair_some h6
  have hl : n.ip.length = 16 := hn.1
  refine ⟨⟨unpack64 key ++ n.ip.drop 8, n.mask⟩, ?_⟩
  have e6 : v6Pair ⟨unpack64 key ++ n.ip.drop 8, n.mask⟩ = some { k with msKey := key } := by
    unfold v6Pair at h6 ⊢
    simp only [hl, ne_eq, not_true, if_false] at h6
    have p1 : IP.pack64 (unpack64 key ++ n.ip.drop 8) = key := by rw [IP.pack64_append _ _ (by simp)]; exact IP.pack64_unpack64 key
    have p2 : (unpack64 key ++ n.ip.drop 8).drop 8 = n.ip.drop 8 := List.drop_left' (by simp)
    have hl' : (unpack64 key ++ n.ip.drop 8).length = 16 := by simp [hl]
    simp only [hl', ne_eq, not_true, if_false, p1, p2]
    split at h6
    · cases h6
    · rename_i hm
      simp only [hm, if_false]
      simp only [Option.some.injEq] at h6
      rw [← h6]
  have hn' := (IP.v6Pair_some e6).2
  have hb : Pair64.bits { k with msKey := key } = k.bits := by
    unfold Pair64.bits
    simp only
    rw [(sig_eq_iff key k.msKey k.msBits k.msBits).2 ⟨rfl, hk⟩]
  rw [hb] at hn'
  refine ⟨IP.v4Key_of_v6 hn', e6, .inr ⟨_, _, rfl, rfl, fun g p => ?_⟩⟩
  constructor
  · intro q
    obtain ⟨rfl, rfl⟩ := IP.IsNet.unique hn q
    exact hn'
  · intro q
    obtain ⟨rfl, rfl⟩ := IP.IsNet.unique hn' q
    exact hn

section
variable {f : Nat} (hf : 66 ≤ f) {h : Heap (UD V)}

/-- A nested tree was changed in place: what else is in `root64` is as before. -/
theorem resub_vals {h1 : Heap (UD V)} {P : ATree (ND 64 (AB V))} (hP : Rep6 h P) (hc : ∀ x, tot x P ≤ 1) {k : BitVec 64} {b : Int} {B B' : AB V}
    (e : Num.ExactMatch (erase P) k b = some B) (hB' : Sub h1 B') (cB : ∀ x, cnt x B' ≤ if h.next ≤ x then 1 else cnt x B)
    (kn : h.next ≤ h1.next) (km : ∀ a, a < h.next → cnt a B = 0 → h1.mem a = h.mem a) :
    Rep (k64s.view h1) (mapA ptr P) ∧ (∀ u ∈ vals (Num.Insert (erase P) k b B'), Sub h1 u ∧ ∀ a, 1 ≤ cnt a P → cnt a u = 0) ∧
    ∀ x, cnt x P + sumV (cnt x) (Num.Insert (erase P) k b B') ≤ if h.next ≤ x then 1 else tot x P := by
  have e' : ∃ n x y, exactMatch (erase P) k (clamp 64 b) = .node n x y ∧ n.value = B := by
    unfold Num.ExactMatch Num.FindNode at e
    cases e' : exactMatch (erase P) k (clamp 64 b) with
    | nil => simp [e'] at e
    | node n l r => simp [e'] at e; exact ⟨n, l, r, rfl, e⟩
  obtain ⟨n, _, _, e1, e2⟩ := e'
  obtain ⟨l1, l2, v1, v2⟩ := exact_split hP.wf (c := ⟨k, clamp 64 b, true, B'⟩) (clamp_le b) e1
  rw [e2] at v1
  have v2 : vals (Num.Insert (erase P) k b B') = l1 ++ B' :: l2 := v2
  have tt : ∀ x, tot x P = cnt x P + ((l1.map (cnt x)).sum + (cnt x B + (l2.map (cnt x)).sum)) := fun x => by
    unfold tot; rw [sumV_vals, v1]; simp
  have le : ∀ (x : Addr) (l : List (AB V)) (u : AB V), u ∈ l → cnt x u ≤ (l.map (cnt x)).sum := fun x l u hu => by
    induction l with
    | nil => cases hu
    | cons a l ih =>
      rcases List.mem_cons.1 hu with rfl | hu
      · simp
      · have := ih hu; simp; omega
  refine ⟨?_, ?_, ?_⟩
  · refine rep_frame hP.rep kn fun a ha => k64s.view_frame (km a ?_ ?_)
    · exact rep_lt hP.rep ha
    · simp only [cnt_mapA] at ha
      have := tt a; have := hc a; omega
  · intro u hu
    rw [v2] at hu
    have hu' : u = B' ∨ u ∈ l1 ∨ u ∈ l2 := by
      simp only [List.mem_append, List.mem_cons] at hu; grind
    rcases hu' with rfl | hu'
    · refine ⟨hB', fun a ha => ?_⟩
      have h1 := tt a; have h2 := hc a; have h3 := cB a
      have h4 : a < h.next := rep_lt hP.rep (by simpa using ha)
      rw [if_neg (by omega)] at h3
      omega
    · have hm : u ∈ vals (erase P) := by rw [v1]; simp; grind
      have hle : ∀ x, cnt x u ≤ (l1.map (cnt x)).sum + (l2.map (cnt x)).sum := fun x => by
        rcases hu' with q | q
        · have := le x _ _ q; omega
        · have := le x _ _ q; omega
      have hs := hP.sub u hm
      refine ⟨hs.frame kn fun a ha => km a ?_ ?_, fun a ha => ?_⟩
      · have := fun q => hs.zero (a := a) q; omega
      · have := tt a; have := hc a; have := hle a; omega
      · have := tt a; have := hc a; have := hle a; omega
  · intro x
    rw [sumV_vals, v2]
    simp only [List.map_append, List.map_cons, List.sum_append, List.sum_cons]
    have h1 := tt x; have h3 := cB x
    by_cases q : h.next ≤ x
    · have := hP.zero q
      simp only [q, if_true] at h3 ⊢; omega
    · simp only [q, if_false] at h3 ⊢; omega


include hf

theorem InplaceInsertNetP_spec [Inhabited V] {a : Addr} {t : Tree V} {F : Addr → Prop} (hT : TRep h (some a) (some t) F) (n : Option IPNet) (v : V) :
    wp (fun x => F x ∨ h.next ≤ x) (InplaceInsertNetP f (some a) n v)
      (fun _ h' => ∃ n' F', SameNet n n' ∧ TRep h' (some a) (UIP.InsertNet (some t) n' v) F' ∧ ∀ x, F' x → h.next ≤ x ∨ F x) h := by
  have hT0 := hT
  obtain ⟨a', A, P, ea, hm, hl, hA, hP, ht, hF⟩ := hT
  cases ea
  unfold InplaceInsertNetP
  cases n with
  | none => exact ⟨none, F, .inl rfl, hT0, fun x => .inr⟩
  | some n =>
    have Fa : F a := (hF a).2 (.inl rfl)
    have fA := fun x hx => (hF x).2 (.inr (.inl hx))
    have fP := fun x hx => (hF x).2 (.inr (.inr hx))
    have za : cnt a A = 0 := by
      refine Nat.eq_zero_of_not_pos fun q => ?_
      obtain ⟨d, x, y, e⟩ := cell32 hA.1 q; rw [e] at hm; cases hm
    have zp : tot a P = 0 := hP.1.not_tree hm
    have dj : ∀ x, 1 ≤ cnt x A → tot x P = 0 := fun x hx => by
      obtain ⟨d, _, _, e'⟩ := cell32 hA.1 hx
      exact hP.1.not_n32 e'
    cases e4 : v4Key n with
    | some kb =>
      obtain ⟨key, bits⟩ := kb
      simp only [e4]
      rw [wp_bind, wp_rootsP hm, wp_bind]
      refine wp_mono (W := fun x => 1 ≤ cnt x A ∨ h.next ≤ x) (fun x hx => hx.imp_left (fA x)) ?_ (inp4_spec hf hA.1 hA.2.1 hA.2.2 key bits v)
      rintro p h' ⟨A', rfl, h2, h3, h4, h5, h6⟩
      have hm' := (h6 a hl za).trans hm
      rw [wp_setRoot32 hm']
      refine ⟨.inl Fa, some n, ?_⟩
      simp only [UIP.InsertNet, Option.getD_some, ht, e4]
      rw [← h3]
      obtain ⟨F', q1, q2⟩ := inp_done (h0 := h) (F := F) hm' (by omega) Fa (A := A') (P := P) ⟨h2, by rw [h3]; exact insert_wf' hA.2.1 _ _ _, fun x => by have := h4 x; have := hA.2.2 x; grind⟩
        ⟨hP.1.frame h5 fun x hx => h6 x (hP.1.lt hx) (by have := dj x; omega), hP.2⟩ (fun x hx => by have := h4 x; have := fA x; grind) (fun x hx => .inr (fP x hx))
      exact ⟨F', .inl rfl, q1, q2⟩
    | none =>
      simp only [e4]
      cases e6 : v6Pair n with
      | none =>
        refine ⟨some n, F, .inl rfl, ?_, fun x => .inr⟩
        simp only [UIP.InsertNet, e4, e6]; exact hT0
      | some k =>
        simp only
        have kok := (IP.v6Pair_some e6).1
        have cP : ∀ x, cnt x P ≤ 1 := fun x => by have := hP.2 x; unfold tot at this; omega
        have sP : ∀ x u, u ∈ vals (erase P) → cnt x P + cnt x u ≤ tot x P := fun x u hu => by
          have := sub_le_sum (cnt x) hu; unfold tot; omega
        have ck : clamp 64 (k.msBits : Int) = k.msBits := by have := kok.ms; unfold clamp; grind
        rw [wp_bind, wp_rootsP hm, wp_bind]
        refine wp_conseq (exact6_spec hf hP.1 k.msKey k.msBits) ?_
        rintro _ h' ⟨eh, rfl⟩
        have eh := eh.symm
        subst eh
        obtain ⟨B, hsub, hB, eB0, hor, ho⟩ := sub_found hP.1 k.msKey k.msBits
        rcases hor with eB | ⟨eB, rfl⟩
        · -- the entry exists
          rw [eB]
          simp only [Option.map_some]
          rw [wp_bind]
          have mB : B ∈ vals (erase P) := vals_ExactMatch eB
          have tB : ∀ x, cnt x P + cnt x B ≤ tot x P := fun x => sP x _ mB
          have cB1 : ∀ x, cnt x B ≤ 1 := fun x => by have := tB x; have := hP.2 x; omega
          refine wp_mono (W := fun x => 1 ≤ cnt x B ∨ _) (fun x hx => hx.imp_left fun q => fP x (by have := tB x; omega)) ?_ (inpB_spec hf hB cB1 k.lsKey k.lsBits v)
          rintro p h1 ⟨B', rfl, hB', eB', cB, kn, km⟩
          have hm1 := (km a hl (by have := tB a; omega)).trans hm
          have rA : Rep (k32.view h1) A := rep_frame hA.1 kn fun x hx => k32.view_frame (km x (rep_lt hA.1 hx) (by have := tB x; have := dj x hx; omega))
          by_cases hne : ptr B' = ptr B
          · -- the root of the nested tree stays
            simp only [hne, ne_eq, not_true, if_false]
            obtain ⟨nd, xx, yy, e1, e2⟩ : ∃ n x y, exactMatch (erase P) k.msKey k.msBits = .node n x y ∧ n.value = B := by
              have eB := eB
              unfold Num.ExactMatch Num.FindNode at eB
              rw [ck] at eB
              cases e' : exactMatch (erase P) k.msKey k.msBits with
              | nil => simp [e'] at eB
              | node n l r => simp [e'] at eB; exact ⟨n, l, r, rfl, eB⟩
            obtain ⟨f1, f2, f3⟩ := exactMatch_found hP.1.wf kok.ms e1
            have e1' : exactMatch (erase P) nd.key k.msBits = .node nd xx yy := by
              rw [← e1]; exact exactMatch_congr _ kok.ms ((sig_eq_iff _ _ _ _).2 ⟨rfl, f3⟩)
            have eBn : Num.ExactMatch (erase P) nd.key k.msBits = some B := by
              unfold Num.ExactMatch Num.FindNode
              rw [ck, e1', ← e2]
            obtain ⟨n', g4, g6, gs⟩ := rekey e6 (key := nd.key) f3
            obtain ⟨r1, r2, r3⟩ := resub_vals hP.1 hP.2 eBn hB' cB kn km
            have same : mapT ptr (Num.Insert (erase P) nd.key k.msBits B') = mapT ptr (erase P) := by
              rw [← Insert_map ptr rfl]
              have q := insert_self (t := mapT ptr (erase P)) (P := []) ((wf_map ptr [] _).2 hP.1.wf) kok.ms (n := nd.mapV ptr) (x := mapT ptr xx) (y := mapT ptr yy)
                (by rw [exactMatch_map]; simp only [ND.mapV]; rw [e1']; rfl)
              have e3 : ptr B' = (nd.mapV ptr).value := by simp only [ND.mapV, e2, hne]
              unfold Num.Insert
              rw [ck, e3]; exact q
            obtain ⟨P', p1, p2⟩ := mapA_split ptr (mapA ptr P) (Num.Insert (erase P) nd.key k.msBits B') (by rw [erase_mapA, same])
            have pc : ∀ x, cnt x P' = cnt x P := fun x => by have := congrArg (cnt x) p2; simpa using this
            have pp : ptr P' = ptr P := by have := congrArg ptr p2; simpa using this
            have r4 : ∀ x, tot x P' ≤ if h.next ≤ x then 1 else tot x P := fun x => by unfold tot; rw [pc, p1]; exact r3 x
            have hP' : Rep6 h1 P' := ⟨by rw [p2]; exact r1, fun u hu => (r2 u (p1 ▸ hu)).1, by rw [p1]; exact insert_wf' hP.1.wf _ _ _⟩
            obtain ⟨F', q1, q2⟩ := inp_done (h0 := h) (F := F) hm1 (by omega) Fa ⟨rA, hA.2⟩ (P := P') ⟨hP', fun x => by have := r4 x; have := hP.2 x; grind⟩ (fun x hx => .inr (fA x hx))
              (fun x hx => by have := r4 x; have := fP x; grind)
            have noop : h1.put a ⟨.tree, ptr A, ptr P'⟩ = h1 := by
              rw [pp]; rcases h1 with ⟨m, nx⟩
              simp only [Heap.put, Heap.mk.injEq, and_true]
              funext z
              by_cases q : z = a
              · subst q; simp at hm1; simp [hm1]
              · simp [q]
            rw [noop] at q1
            refine ⟨some n', F', gs, ?_, q2⟩
            simp only [UIP.InsertNet, Option.getD_some, ht, g4, g6, ExactMatch_map, eBn, Option.map_some]
            rw [p1, mapT_insert, eB'] at q1
            exact q1
          · obtain ⟨r1, r2, r3⟩ := resub_vals hP.1 hP.2 eB hB' cB kn km
            simp only [ne_eq, hne, not_false_eq_true, if_true]
            rw [wp_bind, wp_rootsP hm1, wp_bind]
            refine wp_mono (W := fun x => 1 ≤ cnt x P ∨ h1.next ≤ x) (fun x hx => hx.imp (fun q => fP x (by unfold tot; omega)) fun q => by omega) ?_
              (inp6_spec hf r1 hP.1.wf cP k.msKey k.msBits B' r2)
            rintro p h' ⟨P', rfl, h2, h3, h4, h5, h6⟩
            have hm' := (h6 a (by omega) (by unfold tot at zp; omega)).trans hm1
            rw [wp_setRoot64 hm']
            have hz := fun x q => hP.1.zero (a := x) q
            refine ⟨.inl Fa, some n, ?_⟩
            simp only [UIP.InsertNet, Option.getD_some, ht, e4, e6, eB0]
            rw [← eB', ← mapT_insert, ← h3]
            refine Exists.imp (fun F' q => ⟨.inl rfl, q.1, q.2⟩) (inp_done (h0 := h) (F := F) hm' (by omega) Fa (A := A) (P := P') ⟨rep_frame rA h5 fun x hx => k32.view_frame (h6 x (Nat.lt_of_lt_of_le (rep_lt hA.1 hx) kn) ?_), hA.2⟩ ⟨h2, fun x => ?_⟩ (fun x hx => .inr (fA x hx)) (fun x hx => ?_))
            · have := dj x hx; unfold tot at this; omega
            · have q1 := h4 x; have q2 := hP.2 x; have q3 := r3 x; rw [← h3] at q3
              have q4 := fun q => h2.zero (a := x) q
              have q5 : h1.next ≤ x → sumV (cnt x) (erase P') = 0 := fun q => by
                rw [h3]; exact sum_zero _ fun u hu => ((r2 u hu).1).zero q
              unfold tot at *; grind
            · have q1 := h4 x; have q2 := fP x; have q3 := r3 x; rw [← h3] at q3
              have q5 : h1.next ≤ x → sumV (cnt x) (erase P') = 0 := fun q => by
                rw [h3]; exact sum_zero _ fun u hu => ((r2 u hu).1).zero q
              unfold tot at *; grind
        · -- a new nested tree
          rw [eB]
          simp only [Option.map_none]
          rw [wp_bind, wp_rootsP hm, wp_bind]
          refine wp_mono (W := fun x => 1 ≤ cnt x (.nil : AB V) ∨ _) (fun x hx => hx.imp_left fun q => by simp at q) ?_ (inpB_spec hf hB (by simp) k.lsKey k.lsBits v)
          rintro p h1 ⟨B', rfl, hB', eB', cB, kn, km⟩
          have km := fun x hx => km x hx rfl
          have hm1 := (km a hl).trans hm
          have rA : Rep (k32.view h1) A := rep_frame hA.1 kn fun x hx => k32.view_frame (km x (rep_lt hA.1 hx))
          have rP : Rep6 h1 P := hP.1.frame kn fun x hx => km x (hP.1.lt hx)
          rw [wp_bind]
          refine wp_mono (W := fun x => 1 ≤ cnt x P ∨ h1.next ≤ x) (fun x hx => hx.imp (fun q => fP x (by unfold tot; omega)) fun q => by omega) ?_
            (inp6_spec hf rP.rep rP.wf cP k.msKey k.msBits B' ?_)
          · rintro p h' ⟨P', rfl, h2, h3, h4, h5, h6⟩
            have hm' := (h6 a (by omega) (by unfold tot at zp; omega)).trans hm1
            rw [wp_setRoot64 hm']
            refine ⟨.inl Fa, some n, ?_⟩
            simp only [UIP.InsertNet, Option.getD_some, ht, e4, e6, eB0]
            rw [← eB', ← mapT_insert, ← h3]
            have hsum : ∀ x, sumV (cnt x) (erase P') ≤ sumV (cnt x) (erase P) + cnt x B' := fun x => by
              have := sumV_insert (cnt x) rfl hP.1.wf (c := ⟨k.msKey, clamp 64 k.msBits, true, B'⟩) (clamp_le (w := 64) (k.msBits : Int))
              rw [h3]; simp only at this; unfold Num.Insert; omega
            refine Exists.imp (fun F' q => ⟨.inl rfl, q.1, q.2⟩) (inp_done (h0 := h) (F := F) hm' (by omega) Fa (A := A) (P := P') ⟨rep_frame rA h5 fun x hx => k32.view_frame (h6 x (Nat.lt_of_lt_of_le (rep_lt hA.1 hx) kn) ?_), hA.2⟩ ⟨h2, fun x => ?_⟩ (fun x hx => .inr (fA x hx)) (fun x hx => ?_))
            · have := dj x hx; unfold tot at this; omega
            · have q1 := h4 x; have q2 := hP.2 x; have q3 := hsum x
              have hz := fun q => hP.1.zero (a := x) q
              have hz' := fun q => rP.zero (a := x) q
              have hb := fun q => hB'.zero (a := x) q
              have hb2 := cB x
              simp only [cnt_nil] at hb2
              unfold tot at *; grind
            · have q1 := h4 x; have q2 := fP x; have q3 := hsum x
              have hb := fun q => hB'.zero (a := x) q
              have hb2 := cB x
              simp only [cnt_nil] at hb2
              unfold tot at *; grind
          · intro u hu
            rcases vals_insert _ _ u hu with rfl | rfl | q
            · refine ⟨hB', fun x hx => ?_⟩
              have hb2 := cB x
              have : ¬ h.next ≤ x := Nat.not_le.2 (rep_lt hP.1.rep (a := x) (by simpa using hx))
              rw [if_neg this] at hb2
              simpa using hb2
            · exact ⟨⟨trivial, trivial⟩, fun _ _ => rfl⟩
            · exact ⟨rP.sub u q, fun x hx => by have := sP x u q; have := hP.2 x; omega⟩
end

end Verif.UIPHeap
