import Verif.Heap.Shared
import Verif.NumHeap.History

/-!
# What an InplaceInsert into one numtree does to the other trees that share nodes with it

The call writes at most one node that existed before, and writing it turns the subtree at that node into the subtree with the
insertion made.  Another tree that contains this node therefore receives the insertion too; a tree that does not stays as it is.
-/

namespace Verif.NumHeap
open Verif.Heap Verif.Heap.Prog Verif.Heap.ATree Verif.Num

section
variable {w : Nat} {V : Type} [KeySize w] [Inhabited V]

/-- The nodes that were there are as before. -/
def Same (h h' : Heap (ND w V)) : Prop := ∀ x, x < h.next → h'.mem x = h.mem x

/-- What happens to the nodes that were there, if the insertion is made into `A`. -/
def Change (A : ATree (ND w V)) (new : ND w V) (h h' : Heap (ND w V)) : Prop :=
  Same h h' ∨
  ∃ c d l r S', 1 ≤ cnt c A ∧ Rep h (.node (c, d) l r) ∧ ptr S' = some c ∧ Rep h' S' ∧ erase S' = Num.insert (.node d (erase l) (erase r)) new ∧
    ¬ ncsb d.key d.bits new.key new.bits < d.bits ∧ (∀ x, x < h.next → x ≠ c → h'.mem x = h.mem x) ∧
    ∀ x, cnt x S' ≤ if h.next ≤ x then 1 else cnt x (.node (c, d) l r : ATree (ND w V))

/-- The node the loop has come from, if there is one. -/
def From (A : ATree (ND w V)) (new : ND w V) (h : Heap (ND w V)) (foc : ATree (ND w V)) (p : Ptr) (br : Bool) : Prop :=
  p = none ∨ ∃ a d sib, p = some a ∧ 1 ≤ cnt a A ∧ Rep h (.mk2 (a, d) br foc sib) ∧ (∀ x, cnt x (.mk2 (a, d) br foc sib : ATree (ND w V)) ≤ 1) ∧
    ¬ ncsb d.key d.bits new.key new.bits < d.bits ∧ ¬ new.bits = d.bits ∧ branch new.key (ncsb d.key d.bits new.key new.bits) = br

theorem link_change {A : ATree (ND w V)} {new : ND w V} {h h1 : Heap (ND w V)} {foc : ATree (ND w V)} {p r : Ptr} {br : Bool} {m : Addr} (hf : From A new h foc p br)
    (hn : h.next ≤ h1.next) (hs : ∀ x, x < h.next → h1.mem x = h.mem x) {M : ATree (ND w V)} (hM : Rep h1 M) (hm : ptr M = some m)
    (he : erase M = Num.insert (erase foc) new) (hc : ∀ x, cnt x M ≤ if h.next ≤ x then 1 else cnt x foc) :
    wp (fun _ => True) (if p = none then pure (some m) else do
      upd p (·.setChild br (some m))
      pure r) (fun x h' => Change A new h h' ∧ (x = r ∨ Same h h')) h1 := by
  rcases hf with rfl | ⟨a, d, sib, rfl, hA, h2, h3, h4, h5, h6⟩
  · simp only [if_true, wp_pure]
    exact ⟨.inl hs, .inr hs⟩
  · obtain ⟨g1, g2, g3, g4⟩ := (rep_mk2 h (a, d) br foc sib).1 h2
    simp only at g1 g2
    have ha := h3 a
    simp only [cnt_mk2, if_true] at ha
    have g1' : h1.mem a = some (cell2 d br (ptr foc) (ptr sib)) := by rw [hs a g2, g1]
    simp only [reduceCtorEq, if_false, wp_bind, wp_upd g1', wp_pure, cell2_setChild]
    refine ⟨trivial, .inr ?_, .inl trivial⟩
    have e : (BTree.mk2 (a, d) br foc sib : ATree (ND w V)) = .node (a, d) ((BTree.mk2 (a, d) br foc sib).child false) ((BTree.mk2 (a, d) br foc sib).child true) := by
      cases br <;> rfl
    refine ⟨a, d, (BTree.mk2 (a, d) br foc sib).child false, (BTree.mk2 (a, d) br foc sib).child true, .mk2 (a, d) br M sib, hA, e ▸ h2, by simp, ?_, ?_, h4, ?_, ?_⟩
    · rw [rep_mk2]
      refine ⟨by rw [hm]; exact Heap.mem_put_self _ _ _, by simp only [Heap.next_put]; omega, rep_put hM ?_ _, rep_put ?_ (by omega) _⟩
      · have := hc a; grind
      · exact rep_frame g4 hn fun x hx => hs x (rep_lt g4 hx)
    · rw [erase_mk2, he, insert_eq _ _ _ _ h4 h5, h6]
      cases br <;> rfl
    · intro x hx hxa
      rw [Heap.mem_put, if_neg hxa, hs x hx]
    · intro x
      rw [← e]
      have h7 := h3 x
      have h8 := hc x
      have h9 := rep_zero h2 x
      simp only [cnt_mk2] at h7 h9 ⊢
      grind

theorem inplaceLoop_change (f : Nat) (key : BitVec w) (sbits : Nat) (value : V) (A foc : ATree (ND w V)) (hf : foc.height < f) (r p : Ptr) (br : Bool)
    (h : Heap (ND w V)) (ht : Rep h foc) (hc : ∀ x, cnt x foc ≤ 1) (hA : ∀ x, cnt x foc ≤ cnt x A) (hfr : From A ⟨key, sbits, true, value⟩ h foc p br) :
    wp (fun _ => True) (inplaceLoop f key sbits value r p br (ptr foc)) (fun x h' => Change A ⟨key, sbits, true, value⟩ h h' ∧ (x = r ∨ Same h h')) h := by
  induction f generalizing foc p br with
  | zero => omega
  | succ f ih =>
  cases foc with
  | nil =>
    simp only [inplaceLoop, ptr_nil, newNode, wp_bind, wp_new]
    refine link_change (M := .node (h.next, ⟨key, sbits, true, value⟩) .nil .nil) hfr (by simp) (fun x hx => ?_) ⟨by simp, by simp, trivial, trivial⟩ rfl (by simp [Num.insert]) fun x => ?_
    · rw [Heap.mem_push, if_neg (by omega)]
    · simp; grind
  | node ad lt rt =>
    obtain ⟨n, nd⟩ := ad
    obtain ⟨h1, h2, h3, h4⟩ := id ht
    simp only at h1 h2
    have hz := rep_zero ht
    simp only [inplaceLoop, ptr_node, wp_bind, wp_load h1]
    split
    · rename_i hb
      split
      · rename_i hb2
        simp only [newNode, wp_bind, wp_new, wp_upd (Heap.mem_push_self _ _), wp_pure, wp_upd (Heap.mem_put_self _ _ _)]
        refine ⟨trivial, trivial, ?_⟩
        refine link_change (M := .mk2 (h.next, ⟨key, sbits, true, value⟩) (branch nd.key (ncsb nd.key nd.bits key sbits)) (.node (n, nd) lt rt) .nil)
          hfr (by simp) (fun x hx => ?_) ?_ (by simp) ?_ fun x => ?_
        · rw [Heap.mem_put, if_neg (by omega), Heap.mem_put, if_neg (by omega), Heap.mem_push, if_neg (by omega)]
        · rw [rep_mk2]
          refine ⟨?_, by simp, rep_put (rep_put (rep_push ht _) (hz _ (Nat.le_refl _)) _) (hz _ (Nat.le_refl _)) _, trivial⟩
          simp only [Heap.mem_put_self, ptr_node, ptr_nil]
          cases branch nd.key (ncsb nd.key nd.bits key sbits) <;> rfl
        · simp only [erase_mk2, erase_node, erase_nil, Num.insert, if_pos hb, if_pos hb2]
        · have := hz x; simp only [cnt_mk2, cnt_nil]; grind
      · rename_i hb2
        simp only [newNode, wp_bind, wp_new, wp_pure]
        generalize hbits : ncsb nd.key nd.bits key sbits = bits at *
        generalize hbr' : branch nd.key bits = b2 at *
        have hm1 : ((h.push ⟨⟨key &&& mask bits, bits, false, (default : V)⟩, none, none⟩).push ⟨⟨key, sbits, true, value⟩, none, none⟩).mem h.next
            = some ⟨⟨key &&& mask bits, bits, false, default⟩, none, none⟩ := by simp [Heap.mem_push]
        rw [wp_upd hm1]
        refine ⟨trivial, ?_⟩
        rw [wp_upd (Heap.mem_put_self _ _ _)]
        refine ⟨trivial, ?_⟩
        refine link_change (M := .mk2 (h.next, ⟨key &&& mask bits, bits, false, default⟩) b2 (.node (n, nd) lt rt) (.node (h.next + 1, ⟨key, sbits, true, value⟩) .nil .nil))
          hfr (by simp only [Heap.next_put, Heap.next_push]; omega) (fun x hx => ?_) ?_ (by simp) ?_ fun x => ?_
        · rw [Heap.mem_put, if_neg (by omega), Heap.mem_put, if_neg (by omega), Heap.mem_push, if_neg (by simp; omega), Heap.mem_push, if_neg (by omega)]
        · rw [rep_mk2]
          refine ⟨?_, by simp; omega, rep_put (rep_put (rep_push (rep_push ht _) _) (hz _ (Nat.le_refl _)) _) (hz _ (Nat.le_refl _)) _, ?_⟩
          · simp only [Heap.mem_put_self, ptr_node, Heap.next_push]
            cases b2 <;> rfl
          · refine ⟨?_, by simp, trivial, trivial⟩
            simp [Heap.mem_put, Heap.mem_push]
        · simp only [erase_mk2, erase_node, erase_nil, Num.insert, hbits, hbr', if_pos hb, if_neg hb2]
        · have := hz x; simp only [cnt_mk2, cnt_nil, cnt_node] at *; grind
    · split
      · rename_i hb hb2
        simp only [wp_bind, wp_upd h1, wp_upd (Heap.mem_put_self _ _ _), wp_pure]
        have hcn := hc n
        simp only [cnt_node, if_true] at hcn
        refine ⟨trivial, trivial, trivial, .inr ⟨n, nd, lt, rt, .node (n, ⟨key, sbits, true, value⟩) lt rt, ?_, ht, rfl, ⟨?_, h2,
            rep_put (rep_put (rep_put h3 (by omega) _) (by omega) _) (by omega) _, rep_put (rep_put (rep_put h4 (by omega) _) (by omega) _) (by omega) _⟩, ?_, hb, ?_, ?_⟩, .inl trivial⟩
        · have := hA n; simp only [cnt_node, if_true] at this; omega
        · simp [hb2]
        · simp only [erase_node, Num.insert, if_neg hb, if_pos hb2]
        · intro x _ hx
          rw [Heap.mem_put, if_neg hx, Heap.mem_put, if_neg hx, Heap.mem_put, if_neg hx]
        · intro x; simp only [cnt_node]; have := hz x; simp only [cnt_node] at this; grind
      · rename_i hb hb2
        generalize hb3 : branch key (ncsb nd.key nd.bits key sbits) = b
        have hch := height_child_lt (n, nd) lt rt b
        rw [ptr_child n]
        refine ih _ (by omega) (some n) b (rep_child ht b) (fun x => ?_) (fun x => ?_) (.inr ⟨n, nd, (BTree.node (n, nd) lt rt).child (!b), rfl, ?_, ?_, fun x => ?_, hb, hb2, hb3⟩)
        · have := hc x
          rw [cnt_child x _ _ _ b] at this; omega
        · have := hA x
          rw [cnt_child x _ _ _ b] at this; omega
        · have := hA n; simp only [cnt_node, if_true] at this; omega
        · rw [BTree.mk2_child]; exact ht
        · rw [BTree.mk2_child]; exact hc x

end

variable {w : Nat} {V : Type} [LawfulKeySize w] [Inhabited V]

omit [Inhabited V] in
theorem prefix_of_ncsb {d new : ND w V} (h1 : d.bits ≤ w) (h2 : new.bits ≤ w) (h : ¬ ncsb d.key d.bits new.key new.bits < d.bits) : d.sig <+: new.sig := by
  have := (le_ncsb_iff (k1 := d.key) (k2 := new.key) (b := d.bits) h1 h2 h1).1 (by omega)
  exact (sig_prefix_iff _ _ _ _).2 this.2

omit [Inhabited V] in
theorem ncsb_of_prefix {d new : ND w V} (h1 : d.bits ≤ w) (h2 : new.bits ≤ w) (h : d.sig <+: new.sig) : ncsb d.key d.bits new.key new.bits = d.bits := by
  have e := (sig_prefix_iff _ _ _ _).1 h
  have := (le_ncsb_iff (b := d.bits) h1 h2 h1).2 ⟨Nat.le_refl _, e⟩
  have hw : ncsb d.key d.bits new.key new.bits ≤ w := clz_le_width _
  have := ((le_ncsb_iff (k1 := d.key) (k2 := new.key) h1 h2 hw).1 (Nat.le_refl _)).1
  omega

/-- A tree that contains the node written gets the insertion. -/
theorem other_hit {new : ND w V} (hnb : new.bits ≤ w) {h h' : Heap (ND w V)} (hn : h.next ≤ h'.next) {c : Addr} {d : ND w V} {l r S' : ATree (ND w V)} (hS : Rep h (.node (c, d) l r))
    (hp : ptr S' = some c) (hS' : Rep h' S') (he : erase S' = Num.insert (.node d (erase l) (erase r)) new) (hb : ¬ ncsb d.key d.bits new.key new.bits < d.bits)
    (hm : ∀ x, x < h.next → x ≠ c → h'.mem x = h.mem x) (hcn : ∀ x, cnt x S' ≤ if h.next ≤ x then 1 else cnt x (.node (c, d) l r : ATree (ND w V)))
    (B : ATree (ND w V)) (P : List Bool) (hB : Rep h B) (hw : WF P (erase B)) (hc : ∀ x, cnt x B ≤ 1) (hx : 1 ≤ cnt c B) :
    ∃ B', ptr B' = ptr B ∧ Rep h' B' ∧ (∀ x, cnt x B' ≤ if h.next ≤ x then 1 else cnt x B) ∧ erase B' = Num.insert (erase B) new ∧ P <+: new.sig := by
  induction B generalizing P with
  | nil => simp at hx
  | node ad lt rt ihl ihr =>
    obtain ⟨a, e⟩ := ad
    by_cases hac : a = c
    · have := rep_unique hB hS (by simp [hac])
      injection this with q1 q2 q3
      injection q1 with q1 q4
      subst q1 q2 q3 q4
      exact ⟨S', hp, hS', hcn, he, hw.2.1.trans (prefix_of_ncsb hw.1 hnb hb)⟩
    · obtain ⟨g1, g2, g3, g4⟩ := id hB
      obtain ⟨w1, w2, _, w3, w4⟩ := id hw
      simp only at g1 g2 w1 w2 w3 w4
      have hca := hc c
      have haa := hc a
      simp only [cnt_node, hac, if_false, if_true] at hx hca haa
      have key : ∀ b, 1 ≤ cnt c ((BTree.node (a, e) lt rt : ATree (ND w V)).child b) →
          (∃ T', ptr T' = ptr ((BTree.node (a, e) lt rt : ATree (ND w V)).child b) ∧ Rep h' T' ∧
            (∀ x, cnt x T' ≤ if h.next ≤ x then 1 else cnt x ((BTree.node (a, e) lt rt : ATree (ND w V)).child b)) ∧
            erase T' = Num.insert (erase ((BTree.node (a, e) lt rt : ATree (ND w V)).child b)) new ∧ e.sig ++ [b] <+: new.sig) →
          ∃ B', ptr B' = ptr (BTree.node (a, e) lt rt : ATree (ND w V)) ∧ Rep h' B' ∧
            (∀ x, cnt x B' ≤ if h.next ≤ x then 1 else cnt x (BTree.node (a, e) lt rt : ATree (ND w V))) ∧
            erase B' = Num.insert (erase (BTree.node (a, e) lt rt : ATree (ND w V))) new ∧ P <+: new.sig := by
        rintro b hcb ⟨T', t1, t2, t3, t4, t5⟩
        have t6 : e.sig <+: new.sig := (List.prefix_append _ _).trans t5
        have hcs : cnt c ((BTree.node (a, e) lt rt : ATree (ND w V)).child (!b)) = 0 := by
          have := cnt_child c (a, e) lt rt b
          have := hc c
          omega
        have hne : ¬ new.bits = e.bits := by
          have := t5.length_le
          simp at this; omega
        have hnc := ncsb_of_prefix w1 hnb t6
        have hbr : branch new.key (ncsb e.key e.bits new.key new.bits) = b := by
          rw [hnc]
          have hle : e.bits < new.bits := by
            have := t5.length_le
            simp at this; omega
          have h5 := sig_snoc_branch (k := new.key) hle hnb
          have h6 : Verif.sig new.key e.bits = e.sig := by
            have := ((sig_prefix_iff _ _ _ _).1 t6).2
            rw [sig_eq_iff]
            exact ⟨rfl, fun i hi => (this i hi).symm⟩
          rw [h6] at h5
          exact snoc_prefix_inj h5 t5
        refine ⟨.mk2 (a, e) b T' ((BTree.node (a, e) lt rt).child (!b)), by simp, ?_, fun x => ?_, ?_, w2.trans t6⟩
        · rw [rep_mk2]
          refine ⟨?_, by simp only; omega, t2, rep_frame (rep_child hB _) hn fun x hx => hm x (rep_lt (rep_child hB _) hx) (by rintro rfl; omega)⟩
          rw [t1, ← node_cell2]
          simp only
          rw [hm a g2 hac, g1]
        · have h5 := t3 x
          have h6 := rep_zero hB x
          rw [cnt_child x _ _ _ b] at h6 ⊢
          rw [cnt_mk2]
          have : x = a → x < h.next := by rintro rfl; exact g2
          grind
        · rw [erase_mk2, t4, erase_child, erase_child, erase_node, insert_eq _ _ _ _ (by rw [hnc]; omega) hne, hbr]
      by_cases hl : 1 ≤ cnt c lt
      · exact key false hl (ihl _ g3 w3 (fun x => by have := hc x; simp only [cnt_node] at this; omega) hl)
      · have hr : 1 ≤ cnt c rt := by omega
        exact key true hr (ihr _ g4 w4 (fun x => by have := hc x; simp only [cnt_node] at this; omega) hr)

omit [LawfulKeySize w] [Inhabited V] in
/-- What a tree holds below a node is what any other tree with this node holds there. -/
theorem den_local {h : Heap (ND w V)} {c : Addr} {d : ND w V} {l r : ATree (ND w V)} (hS : Rep h (.node (c, d) l r)) {q : List Bool} (hq : d.sig <+: q)
    (B : ATree (ND w V)) (P : List Bool) (hB : Rep h B) (hw : WF P (erase B)) (hx : 1 ≤ cnt c B) :
    den (erase B) q = den (.node d (erase l) (erase r)) q ∧ P <+: d.sig := by
  induction B generalizing P with
  | nil => simp at hx
  | node ad lt rt ihl ihr =>
    obtain ⟨a, e⟩ := ad
    by_cases hac : a = c
    · have := rep_unique hB hS (by simp [hac])
      injection this with q1 q2 q3
      injection q1 with q1 q4
      subst q1 q2 q3 q4
      exact ⟨rfl, hw.2.1⟩
    · obtain ⟨g1, g2, g3, g4⟩ := id hB
      obtain ⟨w1, w2, _, w3, w4⟩ := id hw
      simp only [cnt_node, hac, if_false] at hx
      simp only at w2 w3 w4
      rw [erase_node, den_node]
      by_cases hl : 1 ≤ cnt c lt
      · obtain ⟨e1, e2⟩ := ihl _ g3 w3 hl
        have e3 := e2.trans hq
        rw [if_neg (fun z => prefix_snoc_ne e3 z.2), w4.den_eq_none (fun z => by simpa using snoc_prefix_inj e3 z), e1]
        exact ⟨by simp, w2.trans ((List.prefix_append _ _).trans e2)⟩
      · obtain ⟨e1, e2⟩ := ihr _ g4 w4 (by omega)
        have e3 := e2.trans hq
        rw [if_neg (fun z => prefix_snoc_ne e3 z.2), w3.den_eq_none (fun z => by simpa using snoc_prefix_inj e3 z), e1]
        exact ⟨by simp, w2.trans ((List.prefix_append _ _).trans e2)⟩

/-- Another tree stays as it is or gets the insertion. -/
theorem change_other {A : ATree (ND w V)} {new : ND w V} (hnb : new.bits ≤ w) {h h' : Heap (ND w V)} (hn : h.next ≤ h'.next) (hch : Change A new h h')
    (B : ATree (ND w V)) (hB : Rep h B) (hw : WF [] (erase B)) (hc : ∀ x, cnt x B ≤ 1) :
    ∃ B', ptr B' = ptr B ∧ Rep h' B' ∧ (∀ x, cnt x B' ≤ if h.next ≤ x then 1 else cnt x B) ∧ (erase B' = erase B ∨ erase B' = Num.insert (erase B) new) := by
  have hself : ∀ x, cnt x B ≤ if h.next ≤ x then 1 else cnt x B := fun x => by have := hc x; grind
  rcases hch with hm | ⟨c, d, l, r, S', _, h1, h2, h3, h4, h5, h6, h7⟩
  · exact ⟨B, rfl, rep_frame hB hn fun x hx => hm x (rep_lt hB hx), hself, .inl rfl⟩
  · by_cases hx : 1 ≤ cnt c B
    · obtain ⟨B', q1, q2, q3, q4, _⟩ := other_hit hnb hn h1 h2 h3 h4 h5 h6 h7 B [] hB hw hc hx
      exact ⟨B', q1, q2, q3, .inr q4⟩
    · exact ⟨B, rfl, rep_frame hB hn fun x hx' => h6 x (rep_lt hB hx') (by rintro rfl; exact hx hx'), hself, .inl rfl⟩

theorem numImpl_spreads {f : Nat} (hf : w + 2 ≤ f) (n : Nat) : (numImpl f w V).Spreads n where
  toLawful := numImpl_lawful hf n
  inp_other ops o A h _ ho hA hE hN p h' hr ops' B _ hB hEB hNB := by
    have hh : A.height < f := by
      have := run_height (w := w) (V := V) ops
      have e := erase_height A
      rw [hE] at e
      have : (Num.run ops).height = A.height := e
      omega
    cases o with
    | delete k b => exact ho.elim
    | insert k b v =>
      have hw := inplaceLoop_change f k (clamp w b) v A A hh (ptr A) none false h hA hN (fun _ => Nat.le_refl _) (.inl rfl)
      obtain ⟨p', h'', r1, ⟨r2, _⟩, r3, _⟩ := wp_run hw
      have r1' : (InplaceInsertP f (ptr A) k b v).run h = .ok (p', h'') := r1
      have e : (InplaceInsertP f (ptr A) k b v).run h = .ok (p, h') := hr
      rw [r1'] at e
      simp only [Except.ok.injEq, Prod.mk.injEq] at e
      obtain ⟨_, rfl⟩ := e
      have hEB : erase B = Num.run ops' := hEB
      obtain ⟨B', b1, b2, b3, b4⟩ := change_other (clamp_le b) r3 r2 B hB (hEB ▸ (run_wf ops').1) hNB
      refine ⟨B', b1, b2, fun x => by have := b3 x; have := hNB x; grind, b4.imp id fun q => ?_⟩
      rw [q, hEB]; rfl

end Verif.NumHeap
