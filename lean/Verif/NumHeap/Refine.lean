import Verif.NumHeap.Model

/-!
# The pointer-level numtree functions compute the functional ones
-/

namespace Verif.NumHeap
open Verif.Heap Verif.Heap.Prog Verif.Heap.ATree Verif.Heap.AFrame Verif.Num

variable {w : Nat} {V : Type} [KeySize w]

section
variable [Inhabited V]

theorem insert_eq (n : ND w V) (l r : NTree w V) (c : ND w V) (h1 : ¬ ncsb n.key n.bits c.key c.bits < n.bits) (h2 : ¬ c.bits = n.bits) :
    Num.insert (.node n l r) c = BTree.mk2 n (branch c.key (ncsb n.key n.bits c.key c.bits))
      (Num.insert ((BTree.node n l r).child (branch c.key (ncsb n.key n.bits c.key c.bits))) c)
      ((BTree.node n l r).child (!branch c.key (ncsb n.key n.bits c.key c.bits))) := by
  simp only [Num.insert, if_neg h1, if_neg h2]
  cases branch c.key (ncsb n.key n.bits c.key c.bits) <;> rfl

theorem insertP_spec (f : Nat) (t : ATree (ND w V)) (hf : t.height < f) (h : Heap (ND w V)) (ht : Rep h t) (c : Addr) (cd : ND w V)
    (hc : h.mem c = some ⟨cd, none, none⟩) (hcn : c < h.next) (hct : cnt c t = 0) :
    wp (fun a => a = c ∨ h.next ≤ a) (insertP f (ptr t) c) (fun p h' => ∃ t', p = ptr t' ∧ Rep h' t' ∧ erase t' = Num.insert (erase t) cd ∧
      ∀ x, cnt x t' ≤ if x = c ∨ h.next ≤ x then 1 else cnt x t) h := by
  induction f generalizing t h with
  | zero => omega
  | succ f ih =>
  cases t with
  | nil =>
    refine ⟨.node (c, cd) .nil .nil, rfl, ⟨hc, hcn, trivial, trivial⟩, rfl, fun x => ?_⟩
    simp; split <;> split <;> simp_all
  | node ad l r =>
    obtain ⟨n, nd⟩ := ad
    obtain ⟨h1, h2, h3, h4⟩ := id ht
    simp only at h1 h2
    have hcn' : c ≠ n := by rintro rfl; simp at hct
    have hz := rep_zero ht
    simp only [insertP, ptr_node, wp_bind, wp_load h1, wp_load hc]
    split
    · rename_i hb
      split
      · rename_i hb2
        simp only [wp_bind, wp_upd hc, wp_pure]
        refine ⟨by simp, .mk2 (c, cd) (branch nd.key (ncsb nd.key nd.bits cd.key cd.bits)) (.node (n, nd) l r) .nil, by simp, ?_, ?_, fun x => ?_⟩
        · rw [rep_mk2]
          refine ⟨?_, hcn, rep_put ht hct _, trivial⟩
          simp only [Heap.mem_put_self, ptr_node, ptr_nil]
          cases branch nd.key (ncsb nd.key nd.bits cd.key cd.bits) <;> rfl
        · simp only [erase_mk2, erase_node, erase_nil, Num.insert, if_pos hb, if_pos hb2]
        · have := hz x
          rw [cnt_mk2]; simp only [cnt_nil]
          grind
      · rename_i hb2
        have hnc : c ≠ h.next := by omega
        have hnn : n ≠ h.next := by omega
        simp only [newNode, wp_bind, wp_new, wp_upd (Heap.mem_push_self _ _), wp_upd (Heap.mem_put_self _ _ _), wp_pure]
        refine ⟨.inr (Nat.le_refl _), .inr (Nat.le_refl _), .mk2 (h.next, ⟨cd.key &&& mask (ncsb nd.key nd.bits cd.key cd.bits), ncsb nd.key nd.bits cd.key cd.bits, false, default⟩) (branch nd.key (ncsb nd.key nd.bits cd.key cd.bits)) (.node (n, nd) l r) (.node (c, cd) .nil .nil), by simp, ?_, ?_, fun x => ?_⟩
        · rw [rep_mk2]
          refine ⟨?_, by simp, ?_, ?_⟩
          · simp only [Heap.mem_put_self, ptr_node]
            cases branch nd.key (ncsb nd.key nd.bits cd.key cd.bits) <;> rfl
          · exact rep_put (rep_put (rep_push ht _) (hz _ (Nat.le_refl _)) _) (hz _ (Nat.le_refl _)) _
          · refine rep_put (rep_put (rep_push (t := .node (c, cd) .nil .nil) ⟨hc, hcn, trivial, trivial⟩ _) ?_ _) ?_ _ <;> simp [hnc]
        · simp only [erase_mk2, erase_node, erase_nil, Num.insert, if_pos hb, if_neg hb2]
        · have := hz x
          simp only [cnt_mk2, cnt_node, cnt_nil]
          simp only [cnt_node] at this hct
          grind
    · split
      · rename_i hb hb2
        simp only [wp_bind, wp_upd hc, wp_pure]
        simp only [cnt_node] at hct hz
        refine ⟨by simp, .node (c, cd) l r, by simp, ?_, ?_, fun x => ?_⟩
        · refine ⟨by simp [setChld], hcn, rep_put h3 (by omega) _, rep_put h4 (by omega) _⟩
        · simp only [erase_node, Num.insert, if_neg hb, if_pos hb2]
        · have := hz x
          simp only [cnt_node]
          grind
      · rename_i hb hb2
        have hnc : c ≠ h.next := by omega
        have hnn : n ≠ h.next := by omega
        generalize hbr : branch cd.key (ncsb nd.key nd.bits cd.key cd.bits) = br
        have hrep : Rep ((h.push ⟨nd, none, none⟩).put h.next (setChld ⟨nd, none, none⟩ ⟨nd, ptr l, ptr r⟩)) (BTree.node (n, nd) l r) :=
          rep_put (rep_push ht _) (hz _ (Nat.le_refl _)) _
        simp only [newNode, wp_bind, wp_new, wp_upd (Heap.mem_push_self _ _), wp_load (Heap.mem_put_self _ _ _)]
        refine ⟨.inr (Nat.le_refl _), ?_⟩
        have hmem : ((h.push ⟨nd, none, none⟩).put h.next (setChld ⟨nd, none, none⟩ ⟨nd, ptr l, ptr r⟩)).mem c = some ⟨cd, none, none⟩ := by
          simp [Heap.mem_put, Heap.mem_push, hnc, hc]
        have hch := height_child_lt (n, nd) l r br
        have hcc := cnt_child c (n, nd) l r br
        have := wp_frame (ih ((BTree.node (n, nd) l r).child br) (by omega) _ (rep_child hrep br) hmem (by simp; omega) (by omega))
        have e : (setChld (⟨nd, none, none⟩ : Cell (ND w V)) ⟨nd, ptr l, ptr r⟩).child br = ptr ((BTree.node (n, nd) l r).child br) := by
          cases br <;> rfl
        rw [e]
        refine wp_mono (fun a => ?_) (fun p h' => ?_) this
        · simp; omega
        · rintro ⟨⟨t', rfl, r1, r2, r3⟩, r4, r5⟩
          simp only [Heap.next_put, Heap.next_push] at r3 r4 r5
          have hm : h'.mem h.next = some (cell2 nd br (ptr ((BTree.node (n, nd) l r).child br)) (ptr ((BTree.node (n, nd) l r).child (!br)))) := by
            rw [r5 _ (by omega) (by omega), Heap.mem_put_self, ← node_cell2 n]; rfl
          simp only [wp_upd hm, wp_pure]
          refine ⟨.inr (Nat.le_refl _), .mk2 (h.next, nd) br t' ((BTree.node (n, nd) l r).child (!br)), by simp, ?_, ?_, fun x => ?_⟩
          · rw [rep_mk2]
            refine ⟨by simp, by simp; omega, rep_put r1 ?_ _, rep_put ?_ ?_ _⟩
            · have := r3 h.next
              have h5 := hz _ (Nat.le_refl _)
              rw [cnt_child _ _ _ _ br] at h5
              grind
            · refine rep_frame (rep_child hrep (!br)) r4 fun a ha => ?_
              have hlt := rep_lt (rep_child ht (!br)) ha
              refine r5 a (by omega) ?_
              rintro (rfl | h6)
              · omega
              · omega
            · have h5 := hz _ (Nat.le_refl _)
              rw [cnt_child _ _ _ _ br] at h5
              omega
          · rw [erase_mk2, r2, erase_child, erase_child, erase_node, insert_eq _ _ _ _ hb hb2, hbr]
          · have h5 := hz x
            have h6 := r3 x
            rw [cnt_child _ _ _ _ br] at h5 ⊢
            rw [cnt_mk2]
            simp only at h5 hcc ⊢
            grind

omit [KeySize w] [Inhabited V] in
/-- Hanging a subtree into the place of the current one. -/
theorem link_spec {W : Addr → Prop} {h : Heap (ND w V)} {L : List (AFrame (ND w V))} {q p r : Ptr} {br : Bool} {m : Addr}
    (hL : RepC h q L) (hp : p = top L) (hbr : ∀ F L', L = F :: L' → br = F.dir) {M : ATree (ND w V)} (hM : Rep h M)
    (hm : ptr M = some m) (hr : L ≠ [] → r = ptr (plug L M)) (hc : ∀ x, x < h.next → cntC x L ≤ 1)
    (hcm : ∀ x, 1 ≤ cntC x L → cnt x M = 0) (hW : ∀ F L', L = F :: L' → W F.a) :
    wp W (if p = none then pure (some m) else do
      upd p (·.setChild br (some m))
      pure r) (fun q h' => q = ptr (plug L M) ∧ Rep h' (plug L M)) h := by
  subst hp
  cases L with
  | nil =>
    simp only [top_nil, if_true, wp_pure, plug]
    exact ⟨hm.symm, hM⟩
  | cons F L =>
    obtain ⟨h1, h2, h3, h4⟩ := id hL
    have hF := hc F.a h2
    simp only [cntC_cons, if_true] at hF
    obtain rfl := hbr _ _ rfl
    simp only [top_cons, reduceCtorEq, if_false, wp_bind, wp_upd h1, wp_pure, cell2_setChild]
    refine ⟨hW _ _ rfl, hr (by simp), ?_⟩
    rw [rep_plug, hm]
    exact ⟨repC_setTop hL (by omega) (by omega), rep_put hM (hcm _ (by simp; omega)) _⟩

omit [KeySize w] [Inhabited V] in
theorem ptr_plug (F : AFrame (ND w V)) (L : List (AFrame (ND w V))) (s t : ATree (ND w V)) : ptr (plug (F :: L) s) = ptr (plug (F :: L) t) := by
  induction L generalizing F s t with
  | nil => simp [plug]
  | cons G L ih => simp only [plug] at ih ⊢; exact ih G _ _

omit [KeySize w] [Inhabited V] in
theorem ptr_plug_of (L : List (AFrame (ND w V))) (s t : ATree (ND w V)) (h : L ≠ [] ∨ ptr s = ptr t) : ptr (plug L s) = ptr (plug L t) := by
  cases L with
  | nil => simpa [plug] using h
  | cons F L => exact ptr_plug F L s t

theorem inplaceLoop_spec (f : Nat) (key : BitVec w) (sbits : Nat) (value : V) (foc : ATree (ND w V)) (hf : foc.height < f)
    (L : List (AFrame (ND w V))) (r p : Ptr) (br : Bool) (h : Heap (ND w V)) (hL : RepC h (ptr foc) L) (ht : Rep h foc)
    (hc : ∀ x, cnt x foc + cntC x L ≤ 1) (hp : p = top L) (hbr : ∀ F L', L = F :: L' → br = F.dir) (hr : r = ptr (plug L foc)) :
    wp (fun a => 1 ≤ cnt a foc + cntC a L ∨ h.next ≤ a) (inplaceLoop f key sbits value r p br (ptr foc)) (fun q h' => ∃ foc',
      q = ptr (plug L foc') ∧ Rep h' (plug L foc') ∧ erase foc' = Num.insert (erase foc) ⟨key, sbits, true, value⟩ ∧
      ∀ x, cnt x foc' ≤ if h.next ≤ x then 1 else cnt x foc) h := by
  induction f generalizing foc L r p br with
  | zero => omega
  | succ f ih =>
  have hzL : ∀ x, h.next ≤ x → cntC x L = 0 := fun x hx => by
    have := fun q => repC_lt hL (a := x) q; omega
  cases foc with
  | nil =>
    simp only [inplaceLoop, ptr_nil, newNode, wp_bind, wp_new]
    refine wp_conseq (link_spec (L := L) (M := .node (h.next, ⟨key, sbits, true, value⟩) .nil .nil) (repC_push hL _) hp hbr
      ⟨by simp, by simp, trivial, trivial⟩ rfl (fun hne => ?_) (fun x _ => by have := hc x; omega) (fun x hx => ?_) (fun F L' e => ?_)) fun q h' hq => ?_
    · rw [hr]; exact ptr_plug_of _ _ _ (.inl hne)
    · have := hzL x; simp; grind
    · subst e; left; simp; omega
    · refine ⟨_, hq.1, hq.2, by simp [Num.insert], fun x => ?_⟩
      simp; grind
  | node ad lt rt =>
    obtain ⟨n, nd⟩ := ad
    obtain ⟨h1, h2, h3, h4⟩ := id ht
    simp only at h1 h2
    have hz := rep_zero ht
    simp only [inplaceLoop, ptr_node, wp_bind, wp_load h1]
    split
    · rename_i hb
      split
      · rename_i hb2
        simp only [newNode, wp_bind, wp_new, wp_upd (Heap.mem_push_self _ _), wp_pure, wp_upd (Heap.mem_put_self _ _ _)]
        refine ⟨.inr (Nat.le_refl _), .inr (Nat.le_refl _), ?_⟩
        have ht' := rep_put (rep_put (rep_push ht ⟨⟨key, sbits, true, value⟩, none, none⟩) (hz _ (Nat.le_refl _))
          ((⟨⟨key, sbits, true, value⟩, none, none⟩ : Cell _).setChild (branch nd.key (ncsb nd.key nd.bits key sbits)) (some n))) (hz _ (Nat.le_refl _))
            (((⟨⟨key, sbits, true, value⟩, none, none⟩ : Cell _).setChild (branch nd.key (ncsb nd.key nd.bits key sbits)) (some n)).setChild (branch nd.key (ncsb nd.key nd.bits key sbits)) (some n))
        refine wp_conseq (link_spec (L := L) (M := .mk2 (h.next, ⟨key, sbits, true, value⟩) (branch nd.key (ncsb nd.key nd.bits key sbits)) (.node (n, nd) lt rt) .nil)
          (repC_put (repC_put (repC_push hL _) (hzL _ (Nat.le_refl _)) _) (hzL _ (Nat.le_refl _)) _) hp hbr ?_ (by simp) (fun hne => ?_) (fun x _ => by have := hc x; omega) (fun x hx => ?_) (fun F L' e => ?_)) fun q h' hq => ?_
        · rw [rep_mk2]
          refine ⟨?_, by simp, ht', trivial⟩
          simp only [Heap.mem_put_self, ptr_node, ptr_nil]
          cases branch nd.key (ncsb nd.key nd.bits key sbits) <;> rfl
        · rw [hr]; exact ptr_plug_of _ _ _ (.inl hne)
        · have := hzL x; have := hc x; simp only [cnt_mk2, cnt_nil]; grind
        · subst e; left; simp only [cntC_cons, if_true]; omega
        · refine ⟨_, hq.1, hq.2, ?_, fun x => ?_⟩
          · simp only [erase_mk2, erase_node, erase_nil, Num.insert, if_pos hb, if_pos hb2]
          · have := hz x; simp only [cnt_mk2, cnt_nil]; grind
      · rename_i hb2
        simp only [newNode, wp_bind, wp_new, wp_pure]
        generalize hbits : ncsb nd.key nd.bits key sbits = bits at *
        generalize hbr' : branch nd.key bits = b2 at *
        have hm1 : ((h.push ⟨⟨key &&& mask bits, bits, false, (default : V)⟩, none, none⟩).push ⟨⟨key, sbits, true, value⟩, none, none⟩).mem h.next
            = some ⟨⟨key &&& mask bits, bits, false, default⟩, none, none⟩ := by simp [Heap.mem_push]
        rw [wp_upd hm1]
        refine ⟨.inr (Nat.le_refl _), ?_⟩
        rw [wp_upd (Heap.mem_put_self _ _ _)]
        refine ⟨.inr (Nat.le_refl _), ?_⟩
        refine wp_conseq (link_spec (L := L) (M := .mk2 (h.next, ⟨key &&& mask bits, bits, false, default⟩) b2 (.node (n, nd) lt rt) (.node (h.next + 1, ⟨key, sbits, true, value⟩) .nil .nil))
          (repC_put (repC_put (repC_push (repC_push hL _) _) (hzL _ (Nat.le_refl _)) _) (hzL _ (Nat.le_refl _)) _) hp hbr ?_ (by simp) (fun hne => ?_) (fun x _ => by have := hc x; omega) (fun x hx => ?_) (fun F L' e => ?_)) fun q h' hq => ?_
        · rw [rep_mk2]
          refine ⟨?_, by simp; omega, rep_put (rep_put (rep_push (rep_push ht _) _) (hz _ (Nat.le_refl _)) _) (hz _ (Nat.le_refl _)) _, ?_⟩
          · simp only [Heap.mem_put_self, ptr_node, Heap.next_push]
            cases b2 <;> rfl
          · refine ⟨?_, by simp, trivial, trivial⟩
            simp [Heap.mem_put, Heap.mem_push]
        · rw [hr]; exact ptr_plug_of _ _ _ (.inl hne)
        · have := hzL x; have := hc x; simp only [cnt_mk2, cnt_nil, cnt_node] at *; grind
        · subst e; left; simp only [cntC_cons, if_true]; omega
        · refine ⟨_, hq.1, hq.2, ?_, fun x => ?_⟩
          · simp only [erase_mk2, erase_node, erase_nil, Num.insert, hbits, hbr', if_pos hb, if_neg hb2]
          · have := hz x; simp only [cnt_mk2, cnt_nil, cnt_node] at *; grind
    · split
      · rename_i hb hb2
        simp only [wp_bind, wp_upd h1, wp_upd (Heap.mem_put_self _ _ _), wp_pure]
        have hcn := hc n
        simp only [cnt_node, if_true] at hcn
        have hW : 1 ≤ cnt n (BTree.node (n, nd) lt rt) + cntC n L ∨ h.next ≤ n := by left; simp; omega
        refine ⟨hW, hW, hW, .node (n, ⟨key, sbits, true, value⟩) lt rt, ?_, ?_, ?_, fun x => ?_⟩
        · rw [hr]; exact ptr_plug_of _ _ _ (.inr rfl)
        · rw [rep_plug]
          refine ⟨repC_put (repC_put (repC_put hL (by omega) _) (by omega) _) (by omega) _, ?_, h2,
            rep_put (rep_put (rep_put h3 (by omega) _) (by omega) _) (by omega) _, rep_put (rep_put (rep_put h4 (by omega) _) (by omega) _) (by omega) _⟩
          simp [hb2]
        · simp only [erase_node, Num.insert, if_neg hb, if_pos hb2]
        · simp only [cnt_node]; have := hz x; simp only [cnt_node] at this; grind
      · rename_i hb hb2
        generalize hb3 : branch key (ncsb nd.key nd.bits key sbits) = b
        have hch := height_child_lt (n, nd) lt rt b
        have := ih ((BTree.node (n, nd) lt rt).child b) (by omega) (⟨n, nd, b, (BTree.node (n, nd) lt rt).child (!b)⟩ :: L) r (some n) b
          ⟨by rw [h1, ← node_cell2], h2, rep_child ht _, hL⟩ (rep_child ht _) (fun x => ?_) rfl (fun F L' e => by cases e; rfl) ?_
        · rw [ptr_child n]
          refine wp_mono (fun a ha => ?_) (fun q h' => ?_) this
          · have := cnt_child a (n, nd) lt rt b
            simp only [cntC_cons] at ha this; omega
          · rintro ⟨t', r1, r2, r3, r4⟩
            simp only [plug] at r1 r2
            refine ⟨.mk2 (n, nd) b t' ((BTree.node (n, nd) lt rt).child (!b)), r1, r2, ?_, fun x => ?_⟩
            · rw [erase_mk2, r3, erase_child, erase_child, erase_node, insert_eq nd _ _ ⟨key, sbits, true, value⟩ hb hb2, hb3]
            · have h5 := r4 x
              have h6 := hz x
              rw [cnt_child x _ _ _ b] at h6 ⊢
              rw [cnt_mk2]
              grind
        · have := hc x
          have := cnt_child x (n, nd) lt rt b
          simp only [cntC_cons] at *; omega
        · rw [hr]
          simp only [plug]
          rw [BTree.mk2_child]
end

/-- Result node of a lookup: nil iff the functional lookup fails, else a node with that payload. -/
def Found (h : Heap (ND w V)) (r : Ptr) (x : Option (ND w V)) : Prop :=
  match r with
  | none => x = none
  | some a => ∃ c, h.mem a = some c ∧ x = some c.d

theorem matchN_child (n : ND w V) (l r : NTree w V) (key : BitVec w) (bits : Nat) :
    (if branch key n.bits then matchN r key bits else matchN l key bits) = matchN ((BTree.node n l r).child (branch key n.bits)) key bits := by
  cases branch key n.bits <;> rfl

theorem matchP_spec (f : Nat) (t : ATree (ND w V)) (hf : t.height < f) (h : Heap (ND w V)) (ht : Rep h t) (hn : t ≠ .nil) (key : BitVec w) (bits : Nat) :
    wp (fun _ => False) (matchP f (ptr t) key bits) (fun r h' => h' = h ∧ Found h r (matchN (erase t) key bits)) h := by
  induction f generalizing t with
  | zero => omega
  | succ f ih =>
  cases t with
  | nil => exact absurd rfl hn
  | node ad l r =>
    obtain ⟨n, nd⟩ := ad
    obtain ⟨h1, h2, h3, h4⟩ := id ht
    simp only at h1 h2
    simp only [matchP, ptr_node, wp_bind, wp_load h1, erase_node, matchN]
    split
    · exact ⟨rfl, rfl⟩
    · split
      · split
        · exact ⟨rfl, _, h1, rfl⟩
        · exact ⟨rfl, rfl⟩
      · split
        · exact ⟨rfl, rfl⟩
        · rw [ptr_child n, matchN_child]
          rw [← erase_node (n, nd), ← erase_child]
          generalize hb : branch key nd.bits = b
          have hch := height_child_lt (n, nd) l r b
          have hrep := rep_child ht b
          generalize (BTree.node (n, nd) l r).child b = c at *
          have fin : ∀ x : Option (ND w V), ∀ q : Ptr, Found h q x → wp (fun _ => False) (if q ≠ none then pure q else if nd.leaf = true then pure (some n) else pure none)
              (fun r h' => h' = h ∧ Found h r (match x with | some x => some x | none => if nd.leaf = true then some nd else none)) h := by
            intro x q hq
            cases q with
            | some a =>
              obtain ⟨c, e1, rfl⟩ := hq
              exact ⟨rfl, _, e1, rfl⟩
            | none =>
              cases hq
              simp only [ne_eq, not_true_eq_false, if_false]
              split
              · exact ⟨rfl, _, h1, rfl⟩
              · exact ⟨rfl, rfl⟩
          cases c with
          | nil => exact fin none none rfl
          | node ad' l' r' =>
            simp only [ptr_node, ifNotNil_some, wp_bind]
            refine wp_conseq (ih (.node ad' l' r') (by omega) hrep (by simp)) ?_
            rintro q h' ⟨rfl, hq⟩
            exact fin _ _ hq

theorem exactMatch_child (n : ND w V) (l r : NTree w V) (key : BitVec w) (bits : Nat) :
    (if branch key n.bits then exactMatch r key bits else exactMatch l key bits) = exactMatch ((BTree.node n l r).child (branch key n.bits)) key bits := by
  cases branch key n.bits <;> rfl

theorem exactMatchP_spec (f : Nat) (t : ATree (ND w V)) (hf : t.height < f) (h : Heap (ND w V)) (ht : Rep h t) (hn : t ≠ .nil) (key : BitVec w) (bits : Nat) :
    wp (fun _ => False) (exactMatchP f (ptr t) key bits) (fun r h' => h' = h ∧
      ∃ s, r = ptr s ∧ Rep h s ∧ erase s = exactMatch (erase t) key bits ∧ ∀ x, cnt x s ≤ cnt x t) h := by
  induction f generalizing t with
  | zero => omega
  | succ f ih =>
  cases t with
  | nil => exact absurd rfl hn
  | node ad l r =>
    obtain ⟨n, nd⟩ := ad
    obtain ⟨h1, h2, h3, h4⟩ := id ht
    simp only at h1 h2
    simp only [exactMatchP, ptr_node, wp_bind, wp_load h1, erase_node, exactMatch]
    split
    · exact ⟨rfl, .nil, rfl, trivial, rfl, by simp⟩
    · split
      · split
        · exact ⟨rfl, .node (n, nd) l r, rfl, ht, rfl, by simp⟩
        · exact ⟨rfl, .nil, rfl, trivial, rfl, by simp⟩
      · split
        · exact ⟨rfl, .nil, rfl, trivial, rfl, by simp⟩
        · rw [ptr_child n, exactMatch_child]
          rw [← erase_node (n, nd), ← erase_child]
          have hcc := fun x => cnt_child x (n, nd) l r (branch key nd.bits)
          have hch := height_child_lt (n, nd) l r (branch key nd.bits)
          have hrep := rep_child ht (branch key nd.bits)
          generalize (BTree.node (n, nd) l r).child (branch key nd.bits) = c at *
          have e : ∀ r : Ptr, (if r ≠ none then pure r else pure none : Prog (ND w V) Ptr) = pure r := by
            intro r; cases r <;> rfl
          simp only [e]
          cases c with
          | nil => exact ⟨rfl, .nil, rfl, trivial, rfl, by simp⟩
          | node ad' l' r' =>
            simp only [ptr_node, ifNotNil_some, wp_bind]
            refine wp_conseq (ih (.node ad' l' r') (by omega) hrep (by simp)) ?_
            rintro q h' ⟨rfl, s, s1, s2, s3, s4⟩
            exact ⟨rfl, s, s1, s2, s3, fun x => by have := s4 x; have := hcc x; omega⟩

omit [KeySize w] in
theorem enumerateP_spec (f : Nat) (t : ATree (ND w V)) (hf : t.height < f) (h : Heap (ND w V)) (ht : Rep h t) (hn : t ≠ .nil) :
    wp (fun _ => False) (enumerateP f (ptr t)) (fun r h' => h' = h ∧ r = enumerate (erase t)) h := by
  induction f generalizing t with
  | zero => omega
  | succ f ih =>
  cases t with
  | nil => exact absurd rfl hn
  | node ad l r =>
    obtain ⟨n, nd⟩ := ad
    obtain ⟨h1, h2, h3, h4⟩ := id ht
    simp only at h1 h2
    simp only [BTree.height_node] at hf
    simp only [enumerateP, ptr_node, wp_bind, wp_load h1, erase_node, enumerate]
    have key : ∀ (t : ATree (ND w V)), t.height < f → Rep h t →
        wp (fun _ => False) (ifNotNil (ptr t) [] (enumerateP f (ptr t))) (fun r h' => h' = h ∧ r = enumerate (erase t)) h := by
      intro t ht hr
      cases t with
      | nil => exact ⟨rfl, rfl⟩
      | node ad' l' r' =>
        simp only [ptr_node, ifNotNil_some]
        exact ih _ ht hr (by simp)
    refine wp_conseq (key l (by omega) h3) ?_
    rintro _ _ ⟨rfl, rfl⟩
    refine wp_conseq (key r (by omega) h4) ?_
    rintro _ _ ⟨rfl, rfl⟩
    exact ⟨rfl, rfl⟩

theorem del_child (n : ND w V) (l r : NTree w V) (key : BitVec w) (bits : Nat) (h1 : ¬ bits ≤ n.bits) (h2 : ¬ (!agree n.key key n.bits) = true) :
    del (.node n l r) key bits =
      if (del ((BTree.node n l r).child (branch key n.bits)) key bits).2 = false then (.node n l r, false)
      else if (del ((BTree.node n l r).child (branch key n.bits)) key bits).1.isNil && !n.leaf then ((BTree.node n l r).child (!branch key n.bits), true)
      else (BTree.mk2 n (branch key n.bits) (del ((BTree.node n l r).child (branch key n.bits)) key bits).1 ((BTree.node n l r).child (!branch key n.bits)), true) := by
  simp only [del, if_neg h1, if_neg h2]
  cases branch key n.bits
  · simp only [Bool.false_eq_true, if_false, BTree.child_false, Bool.not_false, BTree.child_true]
    rcases del l key bits with ⟨c, b⟩
    cases b <;> simp <;> rfl
  · simp only [if_true, BTree.child_true, Bool.not_true, BTree.child_false]
    rcases del r key bits with ⟨c, b⟩
    cases b <;> simp <;> rfl

theorem erase_isNil {D : Type} (t : ATree D) : (erase t).isNil = t.isNil := by cases t <;> rfl

theorem delP_spec (f : Nat) (t : ATree (ND w V)) (hf : t.height < f) (h : Heap (ND w V)) (ht : Rep h t) (hn : t ≠ .nil) (key : BitVec w) (bits : Nat) :
    wp (fun a => h.next ≤ a) (delP f (ptr t) key bits) (fun r h' => ∃ t', r.1 = ptr t' ∧ Rep h' t' ∧ (erase t', r.2) = del (erase t) key bits ∧
      (r.2 = false → t' = t) ∧ ∀ x, cnt x t' ≤ if h.next ≤ x then 1 else cnt x t) h := by
  induction f generalizing t with
  | zero => omega
  | succ f ih =>
  cases t with
  | nil => exact absurd rfl hn
  | node ad l r =>
    obtain ⟨n, nd⟩ := ad
    obtain ⟨h1, h2, h3, h4⟩ := id ht
    simp only at h1 h2
    have hz := rep_zero ht
    have same : ∃ t', (some n, false).1 = ptr t' ∧ Rep h t' ∧ (erase t', false) = (erase (.node (n, nd) l r), false) ∧
        ((some n, false).2 = false → t' = BTree.node (n, nd) l r) ∧ ∀ x, cnt x t' ≤ if h.next ≤ x then 1 else cnt x (BTree.node (n, nd) l r) :=
      ⟨.node (n, nd) l r, rfl, ht, rfl, fun _ => rfl, fun x => by have := hz x; grind⟩
    simp only [delP, ptr_node, wp_bind, wp_load h1]
    split
    · rename_i hb
      split
      · rename_i hb2
        exact ⟨.nil, rfl, trivial, by simp only [erase_node, del, if_pos hb, if_pos hb2]; rfl, by simp, by simp⟩
      · rename_i hb2
        have e : del (erase (.node (n, nd) l r)) key bits = (erase (.node (n, nd) l r), false) := by
          simp only [erase_node, del, if_pos hb, if_neg hb2]
        rw [wp_pure, e]; exact same
    · rename_i hb
      split
      · rename_i hb2
        have e : del (erase (.node (n, nd) l r)) key bits = (erase (.node (n, nd) l r), false) := by
          simp only [erase_node, del, if_neg hb, if_pos hb2]
        rw [wp_pure, e]; exact same
      · rename_i hb2
        have hdel := del_child nd (erase l) (erase r) key bits hb hb2
        rw [← erase_node (n, nd), ← erase_child, ← erase_child] at hdel
        rw [hdel, ptr_child n]
        clear hdel
        generalize hbr : branch key nd.bits = b
        have hcc := fun x => cnt_child x (n, nd) l r b
        have hch := height_child_lt (n, nd) l r b
        have hrep := rep_child ht b
        have hrep' := rep_child ht (!b)
        have hcell := node_cell2 n nd l r b
        rw [ptr_child n]
        rw [hcell] at h1 ⊢
        have hcell' : ∀ x, (setChld (⟨nd, none, none⟩ : Cell (ND w V)) (cell2 nd b (ptr ((BTree.node (n, nd) l r).child b)) (ptr ((BTree.node (n, nd) l r).child !b)))).setChild b x
          = cell2 nd b x (ptr ((BTree.node (n, nd) l r).child !b)) := by intro x; cases b <;> rfl
        generalize (BTree.node (n, nd) l r).child b = c at *
        generalize (BTree.node (n, nd) l r).child (!b) = c' at *
        cases c with
        | nil => simp only [ptr_nil, if_true, wp_pure, erase_nil, del]; simpa using same
        | node ad' l' r' =>
          simp only [ptr_node, reduceCtorEq, if_false, wp_bind]
          refine wp_conseq (wp_frame (ih (.node ad' l' r') (by omega) hrep (by simp))) ?_
          rintro ⟨q, fl⟩ h' ⟨⟨t', rfl, r1, r2, r3, r4⟩, r5, r6⟩
          simp only at r2 r3 ⊢
          have hrep2 := rep_frame hrep' r5 fun a ha => r6 a (rep_lt hrep' ha) (by have := rep_lt hrep' ha; omega)
          have hrep3 := rep_frame ht r5 fun a ha => r6 a (rep_lt ht ha) (by have := rep_lt ht ha; omega)
          rw [← r2]
          cases fl with
          | false =>
            simp only [Bool.not_false, if_true, wp_pure]
            exact ⟨.node (n, nd) l r, rfl, hrep3, rfl, fun _ => rfl, fun x => by have := hz x; grind⟩
          | true =>
            simp only [Bool.not_true, Bool.false_eq_true, if_false, Bool.true_eq_false]
            have e : ((decide (ptr t' = none) && !nd.leaf) = true) ↔ ((erase t').isNil && !nd.leaf) = true := by
              cases t' <;> simp
            simp only [e]
            split
            · refine ⟨c', rfl, hrep2, rfl, by simp, fun x => ?_⟩
              have := hz x; have := hcc x; grind
            · simp only [newNode, wp_bind, wp_new, wp_upd (Heap.mem_push_self _ _), wp_upd (Heap.mem_put_self _ _ _), wp_pure]
              refine ⟨r5, r5, .mk2 (h'.next, nd) b t' c', by simp, ?_, ?_, by simp, fun x => ?_⟩
              · rw [rep_mk2]
                refine ⟨?_, by simp, ?_, ?_⟩
                · simp only [Heap.mem_put_self]; exact congrArg some (hcell' _)
                · exact rep_put (rep_put (rep_push r1 _) (rep_zero r1 _ (Nat.le_refl _)) _) (rep_zero r1 _ (Nat.le_refl _)) _
                · exact rep_put (rep_put (rep_push hrep2 _) (rep_zero hrep2 _ (Nat.le_refl _)) _) (rep_zero hrep2 _ (Nat.le_refl _)) _
              · simp
              · have := hz x; have := hcc x; have := r4 x; have := rep_zero r1 x; have := rep_zero hrep' x
                rw [cnt_mk2]
                grind

end Verif.NumHeap
