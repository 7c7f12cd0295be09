import Verif.IPHeap.Touch

/-! # Trees in memory whose cells are like those of another memory -/

namespace Verif.IPHeap
open Verif Verif.Heap Verif.Heap.Prog Verif.Heap.ATree Verif.Num Verif.NumHeap Verif.IP

variable {V σ : Type} {w : Nat} {W X : Type}

/-! ## Numerical trees with other values -/

/-- Lists related element by element. -/
def SameL {α β : Type} (R : α → β → Prop) : List α → List β → Prop
  | [], [] => True
  | a :: l, b :: m => R a b ∧ SameL R l m
  | _, _ => False

theorem SameL.append {α β : Type} {R : α → β → Prop} {l1 l2 : List α} {m1 m2 : List β} (h1 : SameL R l1 m1) (h2 : SameL R l2 m2) : SameL R (l1 ++ l2) (m1 ++ m2) := by
  induction l1 generalizing m1 with
  | nil => cases m1 with
    | nil => exact h2
    | cons b m => exact h1.elim
  | cons a l ih => cases m1 with
    | nil => exact h1.elim
    | cons b m => exact ⟨h1.1, ih h1.2⟩

theorem SameL.mem_right {α β : Type} {R : α → β → Prop} {l : List α} {m : List β} (h : SameL R l m) {b : β} (hb : b ∈ m) : ∃ a ∈ l, R a b := by
  induction l generalizing m with
  | nil => cases m with
    | nil => cases hb
    | cons b m => exact h.elim
  | cons a l ih => cases m with
    | nil => exact h.elim
    | cons c m =>
      rcases List.mem_cons.1 hb with rfl | hb
      · exact ⟨a, by simp, h.1⟩
      · obtain ⟨x, hx, hr⟩ := ih h.2 hb
        exact ⟨x, by simp [hx], hr⟩

theorem SameL.map {α β γ δ : Type} {R : α → β → Prop} {S : γ → δ → Prop} {f : α → γ} {g : β → δ} {l : List α} {m : List β} (h : SameL R l m)
    (hf : ∀ a ∈ l, ∀ b, R a b → S (f a) (g b)) : SameL S (l.map f) (m.map g) := by
  induction l generalizing m with
  | nil => cases m with
    | nil => trivial
    | cons b m => exact h.elim
  | cons a l ih => cases m with
    | nil => exact h.elim
    | cons c m => exact ⟨hf a (by simp) c h.1, ih h.2 fun x hx => hf x (by simp [hx])⟩

theorem SameL.flatMap {α β γ δ : Type} {R : α → β → Prop} {S : γ → δ → Prop} {f : α → List γ} {g : β → List δ} {l : List α} {m : List β} (h : SameL R l m)
    (hf : ∀ a ∈ l, ∀ b, R a b → SameL S (f a) (g b)) : SameL S (l.flatMap f) (m.flatMap g) := by
  induction l generalizing m with
  | nil => cases m with
    | nil => trivial
    | cons b m => exact h.elim
  | cons a l ih => cases m with
    | nil => exact h.elim
    | cons c m =>
      simp only [List.flatMap_cons]
      exact (hf a (by simp) c h.1).append (ih h.2 fun x hx => hf x (by simp [hx]))

/-- Nodes that differ at most in the values. -/
def SameND (R : W → W → Prop) (n n' : ND w W) : Prop := n'.key = n.key ∧ n'.bits = n.bits ∧ n'.leaf = n.leaf ∧ R n.value n'.value

/-- Trees that differ at most in the values. -/
def SameT (R : W → W → Prop) : NTree w W → NTree w W → Prop
  | .nil, .nil => True
  | .node n l r, .node n' l' r' => SameND R n n' ∧ SameT R l l' ∧ SameT R r r'
  | _, _ => False

theorem SameT.nil_iff {R : W → W → Prop} {t t' : NTree w W} (h : SameT R t t') : t' = .nil ↔ t = .nil := by
  cases t <;> cases t' <;> simp_all [SameT]

theorem SameT.mono {R S : W → W → Prop} (hR : ∀ a b, R a b → S a b) {t t' : NTree w W} (h : SameT R t t') : SameT S t t' := by
  induction t generalizing t' with
  | nil => cases t' with
    | nil => trivial
    | node _ _ _ => exact h.elim
  | node n l r ihl ihr => cases t' with
    | nil => exact h.elim
    | node n' l' r' => exact ⟨⟨h.1.1, h.1.2.1, h.1.2.2.1, hR _ _ h.1.2.2.2⟩, ihl h.2.1, ihr h.2.2⟩

theorem SameND.sig {R : W → W → Prop} {n n' : ND w W} (h : SameND R n n') : n'.sig = n.sig := by
  unfold ND.sig; rw [h.1, h.2.1]

theorem SameT.wf {R : W → W → Prop} {P : List Bool} {t t' : NTree w W} (h : SameT R t t') (hw : WF P t) : WF P t' := by
  induction t generalizing t' P with
  | nil => cases t' with
    | nil => trivial
    | node _ _ _ => exact h.elim
  | node n l r ihl ihr => cases t' with
    | nil => exact h.elim
    | node n' l' r' =>
      obtain ⟨h1, h2, h3⟩ := h
      obtain ⟨w1, w2, w3, w4, w5⟩ := hw
      refine ⟨by rw [h1.2.1]; exact w1, by rw [h1.sig]; exact w2, fun e => ?_, by rw [h1.sig]; exact ihl h2 w4, by rw [h1.sig]; exact ihr h3 w5⟩
      have := w3 (h1.2.2.1 ▸ e)
      exact ⟨fun q => this.1 (h2.nil_iff.1 q), fun q => this.2 (h3.nil_iff.1 q)⟩

theorem SameT.enumerate {R : W → W → Prop} {t t' : NTree w W} (h : SameT R t t') : SameL (SameND R) (enumerate t) (enumerate t') := by
  induction t generalizing t' with
  | nil => cases t' with
    | nil => trivial
    | node _ _ _ => exact h.elim
  | node n l r ihl ihr => cases t' with
    | nil => exact h.elim
    | node n' l' r' =>
      obtain ⟨h1, h2, h3⟩ := h
      simp only [Num.enumerate]
      refine SameL.append (SameL.append ?_ (ihl h2)) (ihr h3)
      rw [h1.2.2.1]
      split
      · exact ⟨h1, trivial⟩
      · trivial

theorem SameT.map {R : W → W → Prop} {S : X → X → Prop} {g : W → X} (hg : ∀ a b, R a b → S (g a) (g b)) {t t' : NTree w W} (h : SameT R t t') :
    SameT S (mapT g t) (mapT g t') := by
  induction t generalizing t' with
  | nil => cases t' with
    | nil => trivial
    | node _ _ _ => exact h.elim
  | node n l r ihl ihr => cases t' with
    | nil => exact h.elim
    | node n' l' r' => exact ⟨⟨h.1.1, h.1.2.1, h.1.2.2.1, hg _ _ h.1.2.2.2⟩, ihl h.2.1, ihr h.2.2⟩

theorem SameT.vals {R : W → W → Prop} {t t' : NTree w W} (h : SameT R t t') {v : W} (hv : v ∈ vals t') : ∃ u, R u v := by
  induction t generalizing t' with
  | nil => cases t' with
    | nil => cases hv
    | node _ _ _ => exact h.elim
  | node n l r ihl ihr => cases t' with
    | nil => exact h.elim
    | node n' l' r' =>
      simp only [Num.vals, List.mem_cons, List.mem_append] at hv
      rcases hv with rfl | hv | hv
      · exact ⟨_, h.1.2.2.2⟩
      · exact ihl h.2.1 hv
      · exact ihr h.2.2 hv

theorem SameT.sumV {R : W → W → Prop} {g : W → Nat} (hg : ∀ a b, R a b → g b = g a) {t t' : NTree w W} (h : SameT R t t') : sumV g t' = sumV g t := by
  induction t generalizing t' with
  | nil => cases t' with
    | nil => rfl
    | node _ _ _ => exact h.elim
  | node n l r ihl ihr => cases t' with
    | nil => exact h.elim
    | node n' l' r' => simp only [sumV_node, hg _ _ h.1.2.2.2, ihl h.2.1, ihr h.2.2]

/-- A tree in a memory whose cells are like those of another. -/
theorem rep_like {R : X → X → Prop} {R' : W → W → Prop} {g : W → X} {h h' : Heap (ND w X)} (hn : h'.next = h.next)
    (hl : ∀ a c, h.mem a = some c → ∃ c', h'.mem a = some c' ∧ SameN R c c') {A : ATree (ND w W)}
    (pull : ∀ v ∈ vals (erase A), ∀ y, R (g v) y → ∃ v', y = g v' ∧ R' v v') (hA : Rep h (mapA g A)) :
    ∃ A', Rep h' (mapA g A') ∧ ptr A' = ptr A ∧ (∀ x, cnt x A' = cnt x A) ∧ SameT R' (erase A) (erase A') := by
  induction A with
  | nil => exact ⟨.nil, trivial, rfl, fun _ => rfl, trivial⟩
  | node ad l r ihl ihr =>
    obtain ⟨h1, h2, h3, h4⟩ := hA
    obtain ⟨l', l1, l2, l3, l4⟩ := ihl (fun v hv => pull v (by simp [Num.vals, hv])) h3
    obtain ⟨r', r1, r2, r3, r4⟩ := ihr (fun v hv => pull v (by simp [Num.vals, hv])) h4
    obtain ⟨⟨d, e0, e1⟩, c1, c2, c3, c4, c5, c6, c7⟩ := hl _ _ h1
    obtain ⟨v', q1, q2⟩ := pull ad.2.value (by simp [Num.vals]) _ c7
    obtain ⟨dk, db, dl, dv⟩ := d
    simp only at c2 c3 c4 c5 c6 q1
    subst c2 c3 c4 c5 c6 q1
    refine ⟨.node (ad.1, ⟨_, _, _, v'⟩) l' r', ⟨?_, ?_, l1, r1⟩, rfl, fun x => by simp only [cnt_node, l3, r3], ⟨rfl, rfl, rfl, q2⟩, l4, r4⟩
    · have e1 := (ptr_mapA g l').trans (l2.trans (ptr_mapA g l).symm)
      have e2 := (ptr_mapA g r').trans (r2.trans (ptr_mapA g r).symm)
      show _ = some (⟨_, ptr (mapA g l'), ptr (mapA g r')⟩ : Cell (ND w X))
      rw [e1, e2]
      exact c1
    · simp only at h2 ⊢; omega

/-! ## iptree -/

/-- User values may have changed if `g` is the family of the network updated. -/
def RV (b : Prop) (v v' : V) : Prop := b ∨ v' = v

def RTV (b : Prop) : TV V → TV V → Prop
  | .user v, .user v' => RV b v v'
  | .sub s, .sub s' => SameT (RV b) s s'
  | _, _ => False

/-- The relation for trees. -/
def SameIP (g : Fam) : Option (Tree V) → Option (Tree V) → Prop
  | none, none => True
  | some t, some t' => SameT (RV (g = .v4)) t.root32 t'.root32 ∧ SameT (RTV (g = .v6)) t.root64 t'.root64
  | _, _ => False

/-- Cells of `Node64`. -/
def RHV (b : Prop) (x y : HV V) : Prop := SameHV x y ∧ (b ∨ y = x)

theorem like32 {g : Fam} {h h' : Heap (IPD V)} (hl : Like (SameC g) h h') (a : Addr) (c : Cell (ND 32 V)) (hc : (k32.view h).mem a = some c) :
    ∃ c', (k32.view h').mem a = some c' ∧ SameN (RV (g = .v4)) c c' := by
  obtain ⟨d, d1, d2⟩ := (hl.2 a).2 _ (k32.view_mem.1 hc)
  rcases d2 with rfl | ⟨rfl, e, e', e1, rfl, e2⟩ | ⟨_, e, e', e1, _⟩
  · exact ⟨c, k32.view_mem.2 d1, rfl, rfl, rfl, rfl, rfl, .inr rfl⟩
  · obtain rfl := map32_inj e1
    exact ⟨e', k32.view_mem.2 d1, e2.1, e2.2.1, e2.2.2.1, e2.2.2.2.1, e2.2.2.2.2.1, .inl rfl⟩
  · have := congrArg Cell.d e1
    cases this

theorem like64 {g : Fam} {h h' : Heap (IPD V)} (hl : Like (SameC g) h h') (a : Addr) (c : Cell (ND 64 (HV V))) (hc : (k64.view h).mem a = some c) :
    ∃ c', (k64.view h').mem a = some c' ∧ SameN (RHV (g = .v6)) c c' := by
  obtain ⟨d, d1, d2⟩ := (hl.2 a).2 _ (k64.view_mem.1 hc)
  rcases d2 with rfl | ⟨_, e, e', e1, _⟩ | ⟨rfl, e, e', e1, rfl, e2⟩
  · exact ⟨c, k64.view_mem.2 d1, rfl, rfl, rfl, rfl, rfl, sameHV_refl _, .inr rfl⟩
  · have := congrArg Cell.d e1
    cases this
  · obtain rfl := map64_inj e1
    exact ⟨e', k64.view_mem.2 d1, e2.1, e2.2.1, e2.2.2.1, e2.2.2.2.1, e2.2.2.2.2.1, e2.2.2.2.2.2, .inl rfl⟩

theorem sub_like {g : Fam} {h h' : Heap (IPD V)} (hl : Like (SameC g) h h') {B : ATree (ND 64 V)} (hB : Sub h B) :
    ∃ B', Sub h' B' ∧ ptr B' = ptr B ∧ (∀ x, cnt x B' = cnt x B) ∧ SameT (RV (g = .v6)) (erase B) (erase B') := by
  obtain ⟨B', q1, q2, q3, q4⟩ := rep_like (R' := RV (g = .v6)) (h := k64.view h) (h' := k64.view h') hl.1 (like64 hl) (A := B) (g := HV.user) (by
    rintro v _ y ⟨y1, y2⟩
    cases y with
    | sub q => exact y1.elim
    | user v' => exact ⟨v', rfl, y2.imp id fun e => by cases e; rfl⟩) hB.1
  exact ⟨B', ⟨q1, q4.wf hB.2⟩, q2, q3, q4⟩

theorem TRep.like {g : Fam} {h h' : Heap (IPD V)} (hl : Like (SameC g) h h') {r : Ptr} {t : Option (Tree V)} {F : Addr → Prop} (hT : TRep h r t F)
    : ∃ t', TRep h' r t' F ∧ SameIP g t t' := by
  cases t with
  | none => exact ⟨none, hT, trivial⟩
  | some t =>
    obtain ⟨a, A, P, rfl, hm, hlt, hA, hP, rfl, hF⟩ := hT
    obtain ⟨A', a1, a2, a3, a4⟩ := rep_like (R' := RV (g = .v4)) (h := k32.view h) (h' := k32.view h') hl.1 (like32 hl) (A := A) (g := fun x => x)
      (fun v _ y hy => ⟨y, rfl, hy⟩) (by rw [mapA_id]; exact hA.1)
    rw [mapA_id] at a1
    obtain ⟨P', p1, p2, p3, p4⟩ := rep_like (g := toHV) (h := k64.view h) (h' := k64.view h') hl.1 (like64 hl) (A := P)
      (R' := fun v v' => RTV (g = .v6) (toTV v) (toTV v') ∧ SubOk h' v' ∧ ∀ x, subCnt x v' = subCnt x v) (by
        rintro v hv y ⟨y1, y2⟩
        cases v with
        | user v => cases y with
          | sub q => exact y1.elim
          | user v' => exact ⟨.user v', rfl, y2.imp id fun e => (by cases e; rfl), trivial, fun _ => rfl⟩
        | sub B => cases y with
          | user v' => exact y1.elim
          | sub q =>
            obtain ⟨B', b1, b2, b3, b4⟩ := sub_like hl (hP.1.sub _ hv)
            have y1 : q = ptr B := y1
            exact ⟨.sub B', by simp [toHV, b2, y1], b4, b1, fun x => b3 x⟩) hP.1.rep
    have hs : ∀ x, sumV (subCnt x) (erase P') = sumV (subCnt x) (erase P) := fun x => p4.sumV fun _ _ q => q.2.2 x
    have ht : ∀ x, tot x P' = tot x P := fun x => by unfold tot; rw [p3, hs]
    refine ⟨some ⟨erase A', mapT toTV (erase P')⟩, ⟨a, A', P', rfl, ?_, by rw [hl.1]; exact hlt, ⟨a1, a4.wf hA.2.1, fun x => by rw [a3]; exact hA.2.2 x⟩,
      ⟨⟨p1, fun v hv => ?_, p4.wf hP.1.wf⟩, fun x => by rw [ht]; exact hP.2 x⟩, rfl, fun x => by rw [a3, ht]; exact hF x⟩, a4, ?_⟩
    · obtain ⟨d, d1, d2⟩ := (hl.2 a).2 _ hm
      rcases d2 with rfl | ⟨_, e, e', e1, _⟩ | ⟨_, e, e', e1, _⟩
      · rw [d1, a2, p2]
      · cases congrArg Cell.d e1
      · cases congrArg Cell.d e1
    · obtain ⟨u, hu⟩ := p4.vals hv
      exact hu.2.1
    · exact p4.map fun _ _ q => q.1

theorem SameIP.wf {g : Fam} {t t' : Option (Tree V)} (h : SameIP g t t') (hw : WFT (base t)) : WFT (base t') := by
  cases t with
  | none => cases t' with
    | none => exact hw
    | some _ => exact h.elim
  | some t => cases t' with
    | none => exact h.elim
    | some t' =>
      have hw : WFT t := hw
      refine ⟨h.1.wf hw.v4, wf6_iff.2 ⟨h.2.wf hw.v6.1, fun m hm => ?_⟩⟩
      obtain ⟨m0, h0, h1⟩ := h.2.enumerate.mem_right hm
      have ty := (wf6_iff.1 hw.v6).2 m0 h0
      have hv := h1.2.2.2
      rw [h1.sig]
      rcases ty with ⟨y1, u, y2⟩ | ⟨y1, s, y2, y3, y4⟩
      · rw [y2] at hv
        cases e : m.value with
        | sub s' => rw [e] at hv; exact hv.elim
        | user u' => exact .inl ⟨y1, u', rfl⟩
      · rw [y2] at hv
        cases e : m.value with
        | user u' => rw [e] at hv; exact hv.elim
        | sub s' =>
          rw [e] at hv
          have hv : SameT _ s s' := hv
          exact .inr ⟨y1, s', rfl, fun q => y3 (hv.nil_iff.1 q), hv.wf y4⟩

/-- The listings: the same networks in the same order, values changed only in the family `g`. -/
theorem SameIP.list {g : Fam} {t t' : Option (Tree V)} (h : SameIP g t t') (hw : WFT (base t)) :
    SameL (fun x x' : IPNet × V => x'.1 = x.1 ∧ (x'.2 = x.2 ∨ ∃ q, IsCanonNet x.1 g q)) (Enumerate t) (Enumerate t') := by
  cases t with
  | none => cases t' with
    | none => trivial
    | some _ => exact h.elim
  | some t => cases t' with
    | none => exact h.elim
    | some t' =>
      have hw : WFT t := hw
      refine SameL.append (h.1.enumerate.map fun n hn n' hr => ?_) (h.2.enumerate.flatMap fun n hn n' hr => ?_)
      · refine ⟨by unfold key4; rw [hr.1, hr.2.1], ?_⟩
        rcases hr.2.2.2 with rfl | e
        · exact .inr ⟨_, key4_canon (hw.v4.enumerate_prop n hn).2.1⟩
        · exact .inl e
      · have hb := (hw.v6.1.enumerate_prop n hn).2.1
        have ty := (wf6_iff.1 hw.v6).2 n hn
        have hv := hr.2.2.2
        unfold enum6
        cases e : n.value with
        | user v => cases e' : n'.value with
          | sub s' => rw [e, e'] at hv; exact hv.elim
          | user v' =>
            rw [e, e'] at hv
            refine ⟨⟨by simp only [key6, hr.1, hr.2.1], ?_⟩, trivial⟩
            rcases hv with rfl | q
            · exact .inr ⟨_, key6_canon hb⟩
            · exact .inl q
        | sub s => cases e' : n'.value with
          | user v' => rw [e, e'] at hv; exact hv.elim
          | sub s' =>
            rw [e, e'] at hv
            have hv : SameT _ s s' := hv
            have hws : WF [] s := by
              rcases ty with ⟨_, u, y⟩ | ⟨_, s2, y2, _, y4⟩
              · rw [e] at y; cases y
              · rw [e] at y2; cases y2; exact y4
            refine hv.enumerate.map fun m hm m' hmr => ⟨by simp only [key6s, hr.1, hmr.1, hmr.2.1], ?_⟩
            rcases hmr.2.2.2 with rfl | q
            · exact .inr ⟨_, key6s_canon (hws.enumerate_prop m hm).2.1⟩
            · exact .inl q

end Verif.IPHeap
