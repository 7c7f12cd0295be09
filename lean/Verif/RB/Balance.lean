import Verif.RB.Order

/-! # Colours and black heights of the red-black operations; the loops do not panic and stop -/

namespace Verif.RB
variable {K V : Type} {cmp : K → K → Int}

/-- Valid red-black tree of black height `n` (the root may be red). -/
def RBal : RTree K V → Nat → Prop
  | .nil, n => n = 0
  | .node d l r, n =>
    if d.red = true then RBal l n ∧ RBal r n ∧ isRed l = false ∧ isRed r = false
    else ∃ m, n = m + 1 ∧ RBal l m ∧ RBal r m

/-- Valid context for a subtree of black height `n`. -/
def CBal : List (Frame K V) → Nat → Prop
  | [], _ => True
  | f :: fs, n =>
    RBal f.sib n ∧
    if f.d.red = true then isRed f.sib = false ∧ parentRed fs = false ∧ CBal fs n else CBal fs (n + 1)

@[simp] theorem isRed_nil : isRed (.nil : RTree K V) = false := rfl
@[simp] theorem isRed_node (d : RD K V) (l r : RTree K V) : isRed (.node d l r) = d.red := rfl
@[simp] theorem isRed_mk2 (d : RD K V) (b : Bool) (x y : RTree K V) : isRed (.mk2 d b x y) = d.red := by cases b <;> rfl
@[simp] theorem isRed_setRed_false (t : RTree K V) : isRed (setRed false t) = false := by cases t <;> rfl
@[simp] theorem RBal_nil (n : Nat) : RBal (.nil : RTree K V) n ↔ n = 0 := Iff.rfl

theorem RBal_red {d : RD K V} {l r : RTree K V} {n : Nat} (hd : d.red = true) :
    RBal (.node d l r) n ↔ RBal l n ∧ RBal r n ∧ isRed l = false ∧ isRed r = false := by
  simp [RBal, hd]

theorem RBal_black {d : RD K V} {l r : RTree K V} {n : Nat} (hd : d.red = false) :
    RBal (.node d l r) n ↔ ∃ m, n = m + 1 ∧ RBal l m ∧ RBal r m := by
  simp [RBal, hd]

theorem RBal_mk2_red {d : RD K V} {b : Bool} {x y : RTree K V} {n : Nat} (hd : d.red = true) :
    RBal (.mk2 d b x y) n ↔ RBal x n ∧ RBal y n ∧ isRed x = false ∧ isRed y = false := by
  cases b <;> simp [RBal, hd]
  constructor <;> (rintro ⟨a, b, c, d⟩; exact ⟨b, a, d, c⟩)

theorem RBal_mk2_black {d : RD K V} {b : Bool} {x y : RTree K V} {n : Nat} (hd : d.red = false) :
    RBal (.mk2 d b x y) n ↔ ∃ m, n = m + 1 ∧ RBal x m ∧ RBal y m := by
  cases b <;> simp [RBal, hd]
  constructor <;> (rintro ⟨m, a, b, c⟩; exact ⟨m, a, c, b⟩)

theorem RBal_child_red {d : RD K V} {l r : RTree K V} {n : Nat} (hd : d.red = true) (h : RBal (.node d l r) n) (b : Bool) :
    RBal ((BTree.node d l r).child b) n ∧ isRed ((BTree.node d l r).child b) = false := by
  have := (RBal_red hd).1 h
  cases b
  · exact ⟨this.1, this.2.2.1⟩
  · exact ⟨this.2.1, this.2.2.2⟩

/-- Blackening a red valid tree adds one to the black height. -/
theorem RBal.blacken {t : RTree K V} {n : Nat} (h : RBal t n) (hr : isRed t = true) : RBal (setRed false t) (n + 1) := by
  cases t with
  | nil => simp at hr
  | node d l r =>
    have := (RBal_red (by simpa using hr)).1 h
    exact (RBal_black rfl).2 ⟨n, rfl, this.1, this.2.1⟩

theorem RBal.setRed_false {t : RTree K V} {n : Nat} (h : RBal t n) : ∃ m, RBal (setRed false t) m := by
  cases hr : isRed t
  · refine ⟨n, ?_⟩
    cases t with
    | nil => exact h
    | node d l r =>
      have hd : d.red = false := by simpa using hr
      exact (RBal_black rfl).2 ((RBal_black hd).1 h)
  · exact ⟨n + 1, h.blacken hr⟩

theorem RBal_plug {t : RTree K V} {n : Nat} {ctx : List (Frame K V)} (h : RBal t n) (hc : CBal ctx n)
    (hp : parentRed ctx = true → isRed t = false) : ∃ m, RBal (plug t ctx) m := by
  induction ctx generalizing t n with
  | nil => exact ⟨n, h⟩
  | cons f fs ih =>
    obtain ⟨h1, h2⟩ := hc
    unfold plug
    by_cases hr : f.d.red = true
    · simp only [hr, if_true] at h2
      refine ih (n := n) ((RBal_mk2_red hr).2 ⟨h, h1, hp hr, h2.1⟩) h2.2.2 ?_
      intro hx; rw [h2.2.1] at hx; cases hx
    · simp only [hr] at h2
      have hr' : f.d.red = false := by simpa using hr
      refine ih (n := n + 1) ((RBal_mk2_black hr').2 ⟨n, rfl, h, h1⟩) h2 ?_
      intro _; simpa using hr'

/-! ## insert -/

/-- A subtree that will make its root red when visited. -/
def Danger (t : RTree K V) : Prop := t = .nil ∨ (isRed (t.child false) = true ∧ isRed (t.child true) = true)

/-- Invariant at the start of an iteration. -/
structure InsInv (cmp : K → K → Int) (key : K) (ctx : List (Frame K V)) (foc : RTree K V) (n : Nat) : Prop where
  bal : RBal foc n
  cbal : CBal ctx n
  par : parentRed ctx = true → isRed foc = false
  uncle : Danger foc → parentRed ctx = true → ∃ P G rest, ctx = P :: G :: rest ∧ isRed G.sib = false
  next : ∀ d l r, foc = .node d l r → d.red = true →
    Danger (if cmp d.key key < 0 then r else l) → ∃ P rest, ctx = P :: rest ∧ isRed P.sib = false
  dirs : ∀ f ∈ ctx, f.dir = decide (cmp f.d.key key < 0)

/-- Fuel needed for the remaining iterations. -/
def Enough (cmp : K → K → Int) (key : K) (foc : RTree K V) (fuel : Nat) : Prop :=
  2 * foc.height + 1 ≤ fuel ∨
  ∃ d l r, foc = .node d l r ∧ d.red = true ∧ 2 * (if cmp d.key key < 0 then r else l : RTree K V).height + 2 ≤ fuel

theorem fix_noop {ctx : List (Frame K V)} {n : RTree K V} (h : parentRed ctx = true → isRed n = false) :
    fix ctx n = some (ctx, n) := by
  unfold fix
  cases hp : parentRed ctx
  · simp
  · simp [h hp]

theorem height_child_lt (d : RD K V) (l r : RTree K V) (b : Bool) :
    ((BTree.node d l r).child b).height < (BTree.node d l r).height := by
  cases b <;> simp <;> omega

theorem insLoop_balanced [Inhabited V] {key : K} {value : V} (hrefl : cmp key key = 0) {fuel n : Nat}
    {ctx : List (Frame K V)} {foc : RTree K V} (hi : InsInv cmp key ctx foc n) (hf : Enough cmp key foc fuel) :
    ∃ t m, insLoop cmp key value fuel ctx foc = some t ∧ RBal t m := by
  induction fuel generalizing ctx foc n with
  | zero =>
    exfalso
    rcases hf with hf | ⟨d, l, r, _, _, hf⟩ <;> omega
  | succ fuel ih =>
    -- finishing at a node, whatever the context
    have fin : ∀ (ctx' : List (Frame K V)) (d : RD K V) (l r : RTree K V) (m : Nat), RBal (.node d l r) m → CBal ctx' m →
        (parentRed ctx' = true → d.red = false) → ∃ m', RBal (plug (.node { d with value := value } l r) ctx') m' := by
      intro ctx' d l r m h1 h2 h3
      refine RBal_plug (n := m) ?_ h2 (by simpa using h3)
      simpa [RBal] using h1
    -- visiting makes a red node `nd nl nr`; its children have non-red children and black height n
    have rot : ∀ (nd : RD K V) (nl nr : RTree K V) (n : Nat), nd.red = true → RBal nl n → RBal nr n →
        isRed nl = false → isRed nr = false → visit key foc = .node nd nl nr → CBal ctx n → Danger foc →
        (cmp nd.key key = 0 ∨ (¬ Danger nl ∧ ¬ Danger nr ∧ 2 * nl.height + 2 ≤ fuel ∧ 2 * nr.height + 2 ≤ fuel)) →
        ∃ t m, insLoop cmp key value (fuel + 1) ctx foc = some t ∧ RBal t m := by
      intro nd nl nr n hred hnl hnr rl rr hv hcb hdg hend
      unfold insLoop
      rw [hv]
      -- common continuation without rotation or after a single rotation
      have cont : ∀ (ctx' : List (Frame K V)), CBal ctx' n → parentRed ctx' = false →
          (∀ f ∈ ctx', f.dir = decide (cmp f.d.key key < 0)) → fix ctx (.node nd nl nr) = some (ctx', .node nd nl nr) →
          ∃ t m, (match fix ctx (.node nd nl nr) with
            | some (ctx', .node d l r) =>
              let c := cmp d.key key
              if c = 0 then some (plug (.node { d with value := value } l r) ctx')
              else if c < 0 then insLoop cmp key value fuel ({ d := d, dir := true, sib := l } :: ctx') r
              else insLoop cmp key value fuel ({ d := d, dir := false, sib := r } :: ctx') l
            | _ => none) = some t ∧ RBal t m := by
        intro ctx' hcb' hpar hdirs hfix
        rw [hfix]
        simp only
        by_cases h0 : cmp nd.key key = 0
        · simp only [h0, if_true]
          obtain ⟨m', hm'⟩ := fin ctx' nd nl nr n ((RBal_red hred).2 ⟨hnl, hnr, rl, rr⟩) hcb' (by simp [hpar])
          exact ⟨_, m', rfl, hm'⟩
        · obtain ⟨dl, dr, fl, fr⟩ := hend.resolve_left h0
          simp only [h0, if_false]
          by_cases hlt : cmp nd.key key < 0
          · simp only [hlt, if_true]
            refine ih (n := n) ⟨hnr, ⟨hnl, by simp [hred, rl, hpar, hcb']⟩, fun _ => rr, fun hx => absurd hx dr, ?_, ?_⟩ (.inl (by omega))
            · rintro d l r rfl hx; simp [hx] at rr
            · intro f hf; simp at hf; rcases hf with rfl | hf
              · simp [hlt]
              · exact hdirs f hf
          · simp only [hlt, if_false]
            refine ih (n := n) ⟨hnl, ⟨hnr, by simp [hred, rr, hpar, hcb']⟩, fun _ => rl, fun hx => absurd hx dl, ?_, ?_⟩ (.inl (by omega))
            · rintro d l r rfl hx; simp [hx] at rl
            · intro f hf; simp at hf; rcases hf with rfl | hf
              · simp [hlt]
              · exact hdirs f hf
      by_cases hpr : parentRed ctx = true
      · obtain ⟨P, G, rest, rfl, hunc⟩ := hi.uncle hdg hpr
        have hP : P.d.red = true := hpr
        obtain ⟨c1, c2⟩ := hcb
        simp only [hP, if_true] at c2
        obtain ⟨c2, c3, c4, c5⟩ := c2
        have hG : G.d.red = false := c3
        simp only [hG, Bool.false_eq_true, if_false] at c5
        by_cases hdir : P.dir = G.dir
        · -- single rotation
          refine cont ({ d := P.d.col false, dir := P.dir, sib := .mk2 (G.d.col true) G.dir P.sib G.sib } :: rest) ?_ rfl ?_ ?_
          · exact ⟨(RBal_mk2_red rfl).2 ⟨c1, c4, c2, hunc⟩, by simpa using c5⟩
          · intro f hf; simp at hf; rcases hf with rfl | hf
            · exact hi.dirs P (by simp)
            · exact hi.dirs f (by simp [hf])
          · simp [fix, hred, hpr, hdir]
        · -- double rotation
          have hfix : fix (P :: G :: rest) (.node nd nl nr) = some (rest, .mk2 (nd.col false) G.dir
              (.mk2 (P.d.col true) G.dir P.sib ((BTree.node nd nl nr).child G.dir))
              (.mk2 (G.d.col true) G.dir ((BTree.node nd nl nr).child (!G.dir)) G.sib)) := by
            simp [fix, hred, hpr, hdir]
          rw [hfix]
          have hch : ∀ b, RBal ((BTree.node nd nl nr).child b) n ∧ isRed ((BTree.node nd nl nr).child b) = false := by
            intro b; cases b
            · exact ⟨hnl, rl⟩
            · exact ⟨hnr, rr⟩
          have hp' : RBal (.mk2 (P.d.col true) G.dir P.sib ((BTree.node nd nl nr).child G.dir)) n :=
            (RBal_mk2_red rfl).2 ⟨c1, (hch _).1, c2, (hch _).2⟩
          have hg' : RBal (.mk2 (G.d.col true) G.dir ((BTree.node nd nl nr).child (!G.dir)) G.sib) n :=
            (RBal_mk2_red rfl).2 ⟨(hch _).1, c4, (hch _).2, hunc⟩
          have dP := hi.dirs P (by simp)
          have dG := hi.dirs G (by simp)
          have hdr : ∀ f ∈ rest, f.dir = decide (cmp f.d.key key < 0) := fun f hf => hi.dirs f (by simp [hf])
          have step : ∀ (d : RD K V) (x y l r : RTree K V) (b : Bool), (d.red = false) → d.key = nd.key → RBal x n → RBal y n →
              (.mk2 d b x y : RTree K V) = .node d l r →
              (∀ xd xl xr, x = .node xd xl xr → xd.red = true → (if cmp xd.key key < 0 then xr else xl) = nl ∨ (if cmp xd.key key < 0 then xr else xl) = nr) →
              (∀ xd xl xr, y = .node xd xl xr → xd.red = true → (if cmp xd.key key < 0 then xr else xl) = nl ∨ (if cmp xd.key key < 0 then xr else xl) = nr) →
              isRed x = true → isRed y = true →
              ∃ t m, (let c := cmp d.key key
                if c = 0 then some (plug (.node { d with value := value } l r) rest)
                else if c < 0 then insLoop cmp key value fuel ({ d := d, dir := true, sib := l } :: rest) r
                else insLoop cmp key value fuel ({ d := d, dir := false, sib := r } :: rest) l) = some t ∧ RBal t m := by
            intro d x y l r b hd hk hx hy he sx sy rx ry
            simp only
            by_cases h0 : cmp d.key key = 0
            · simp only [h0, if_true]
              obtain ⟨m', hm'⟩ := fin rest d l r (n + 1) (by rw [← he]; exact (RBal_mk2_black hd).2 ⟨n, rfl, hx, hy⟩) c5 (fun _ => hd)
              exact ⟨_, m', rfl, hm'⟩
            · obtain ⟨dl, dr, fl, fr⟩ := hend.resolve_left (by rw [← hk]; exact h0)
              simp only [h0, if_false]
              -- both children are red nodes leading to nl or nr
              have go : ∀ (z z' : RTree K V) (dir : Bool), RBal z n → RBal z' n → isRed z = true →
                  (∀ xd xl xr, z = .node xd xl xr → xd.red = true → (if cmp xd.key key < 0 then xr else xl) = nl ∨ (if cmp xd.key key < 0 then xr else xl) = nr) →
                  dir = decide (cmp d.key key < 0) →
                  ∃ t m, insLoop cmp key value fuel ({ d := d, dir := dir, sib := z' } :: rest) z = some t ∧ RBal t m := by
                intro z z' dir hz hz' rz sz hdd
                cases z with
                | nil => simp at rz
                | node zd zl zr =>
                  have hzd : zd.red = true := by simpa using rz
                  refine ih (n := n) ⟨hz, ⟨hz', by simp [hd, c5]⟩, ?_, ?_, ?_, ?_⟩ (.inr ⟨zd, zl, zr, rfl, hzd, ?_⟩)
                  · intro hx; simp [parentRed, hd] at hx
                  · intro _ hx; simp [parentRed, hd] at hx
                  · intro d2 l2 r2 he2 hr2 hdg2
                    exfalso
                    cases he2
                    rcases sz zd zl zr rfl hzd with h | h <;> rw [h] at hdg2
                    · exact dl hdg2
                    · exact dr hdg2
                  · intro f hf; simp at hf; rcases hf with rfl | hf
                    · exact hdd
                    · exact hdr f hf
                  · rcases sz zd zl zr rfl hzd with h | h <;> rw [h]
                    · exact fl
                    · exact fr
              cases b
              · simp only [BTree.mk2_false, BTree.node.injEq, true_and] at he
                obtain ⟨rfl, rfl⟩ := he
                by_cases hlt : cmp d.key key < 0
                · simp only [hlt, if_true]; exact go _ _ true hy hx ry sy (by simp [hlt])
                · simp only [hlt, if_false]; exact go _ _ false hx hy rx sx (by simp [hlt])
              · simp only [BTree.mk2_true, BTree.node.injEq, true_and] at he
                obtain ⟨rfl, rfl⟩ := he
                by_cases hlt : cmp d.key key < 0
                · simp only [hlt, if_true]; exact go _ _ true hx hy rx sx (by simp [hlt])
                · simp only [hlt, if_false]; exact go _ _ false hy hx ry sy (by simp [hlt])
          cases hgd : G.dir
          · rw [hgd] at hp' hg' dG hdir
            have hpd : P.dir = true := by cases h : P.dir <;> simp_all
            rw [hpd] at dP
            simp only [BTree.mk2_false] at hp' hg' ⊢
            refine step (nd.col false) _ _ _ _ false rfl rfl hp' hg' (BTree.mk2_false _ _ _) ?_ ?_ rfl rfl
            · rintro xd xl xr h _
              cases h
              have : cmp P.d.key key < 0 := by simpa using dP.symm
              left; simp [this]
            · rintro xd xl xr h _
              cases h
              have : ¬ cmp G.d.key key < 0 := by simpa using dG.symm
              right; simp [this]
          · rw [hgd] at hp' hg' dG hdir
            have hpd : P.dir = false := by cases h : P.dir <;> simp_all
            rw [hpd] at dP
            simp only [BTree.mk2_true] at hp' hg' ⊢
            refine step (nd.col false) _ _ _ _ true rfl rfl hp' hg' (BTree.mk2_true _ _ _) ?_ ?_ rfl rfl
            · rintro xd xl xr h _
              cases h
              have : ¬ cmp P.d.key key < 0 := by simpa using dP.symm
              right; simp [this]
            · rintro xd xl xr h _
              cases h
              have : cmp G.d.key key < 0 := by simpa using dG.symm
              left; simp [this]
      · have hpr' : parentRed ctx = false := by simpa using hpr
        exact cont ctx hcb hpr' hi.dirs (fix_noop (by simp [hpr']))
    cases foc with
    | nil =>
      have hn : n = 0 := hi.bal
      subst hn
      exact rot _ .nil .nil 0 rfl rfl rfl rfl rfl rfl hi.cbal (.inl rfl) (.inl hrefl)
    | node d l r =>
      by_cases hflip : isRed l = true ∧ isRed r = true
      · -- colour flip
        have hd : d.red = false := by
          cases h : d.red
          · rfl
          · have := (RBal_red h).1 hi.bal; rw [this.2.2.1] at hflip; simp at hflip
        obtain ⟨m, rfl, hl, hr⟩ := (RBal_black hd).1 hi.bal
        have hv : visit key (.node d l r) = .node (d.col true) (setRed false l) (setRed false r) := by
          simp [visit, hflip]
        have nd : ∀ x : RTree K V, isRed x = true → RBal x m → ¬ Danger (setRed false x) := by
          intro x hx hb
          cases x with
          | nil => simp at hx
          | node xd xl xr =>
            have := (RBal_red (by simpa using hx)).1 hb
            rintro (h | h)
            · simp [setRed] at h
            · simp [setRed, this.2.2.1] at h
        have hh : ∀ x : RTree K V, (setRed false x).height = x.height := by intro x; cases x <;> rfl
        refine rot _ _ _ (m + 1) rfl (hl.blacken hflip.1) (hr.blacken hflip.2) (isRed_setRed_false _) (isRed_setRed_false _) hv
          hi.cbal (.inr hflip) (.inr ⟨nd l hflip.1 hl, nd r hflip.2 hr, ?_, ?_⟩)
        · rcases hf with hf | ⟨d', l', r', he, hr', _⟩
          · rw [hh]; simp at hf; omega
          · cases he; rw [hd] at hr'; cases hr'
        · rcases hf with hf | ⟨d', l', r', he, hr', _⟩
          · rw [hh]; simp at hf; omega
          · cases he; rw [hd] at hr'; cases hr'
      · -- nothing happens at this node
        have hv : visit key (.node d l r) = .node d l r := by
          simp only [visit]; rw [if_neg]; simpa using hflip
        unfold insLoop
        rw [hv, fix_noop hi.par]
        simp only
        by_cases h0 : cmp d.key key = 0
        · simp only [h0, if_true]
          obtain ⟨m', hm'⟩ := fin ctx d l r n hi.bal hi.cbal (by simpa using hi.par)
          exact ⟨_, m', rfl, hm'⟩
        · simp only [h0, if_false]
          cases hd : d.red
          · -- black node
            obtain ⟨m, rfl, hl, hr⟩ := (RBal_black hd).1 hi.bal
            have hfuel : 2 * (BTree.node d l r).height + 1 ≤ fuel + 1 := by
              rcases hf with hf | ⟨d', l', r', he, hr', _⟩
              · exact hf
              · cases he; rw [hd] at hr'; cases hr'
            simp only [BTree.height_node] at hfuel
            have go : ∀ (z z' : RTree K V) (dir : Bool), RBal z m → RBal z' m → ¬ (isRed z = true ∧ isRed z' = true) →
                dir = decide (cmp d.key key < 0) → 2 * z.height + 1 ≤ fuel →
                ∃ t m, insLoop cmp key value fuel ({ d := d, dir := dir, sib := z' } :: ctx) z = some t ∧ RBal t m := by
              intro z z' dir hz hz' hnb hdd hfu
              refine ih (n := m) ⟨hz, ⟨hz', by simp [hd, hi.cbal]⟩, ?_, ?_, ?_, ?_⟩ (.inl hfu)
              · intro hx; simp [parentRed, hd] at hx
              · intro _ hx; simp [parentRed, hd] at hx
              · rintro d2 l2 r2 rfl hr2 _
                refine ⟨_, _, rfl, ?_⟩
                cases h : isRed z'
                · rfl
                · exact absurd ⟨by simpa using hr2, h⟩ hnb
              · intro f hf; simp at hf; rcases hf with rfl | hf
                · exact hdd
                · exact hi.dirs f hf
            by_cases hlt : cmp d.key key < 0
            · simp only [hlt, if_true]; exact go _ _ true hr hl (fun h => hflip ⟨h.2, h.1⟩) (by simp [hlt]) (by omega)
            · simp only [hlt, if_false]; exact go _ _ false hl hr hflip (by simp [hlt]) (by omega)
          · -- red node
            have hb := (RBal_red hd).1 hi.bal
            have hpar : parentRed ctx = false := by
              cases h : parentRed ctx
              · rfl
              · have := hi.par h; simp [hd] at this
            have hnext := hi.next d l r rfl hd
            have hfuel : 2 * (if cmp d.key key < 0 then r else l : RTree K V).height + 1 ≤ fuel := by
              rcases hf with hf | ⟨d', l', r', he, hr', hf⟩
              · simp only [BTree.height_node] at hf; split <;> omega
              · cases he; omega
            have go : ∀ (z z' : RTree K V) (dir : Bool), RBal z n → RBal z' n → isRed z = false → isRed z' = false →
                dir = decide (cmp d.key key < 0) → 2 * z.height + 1 ≤ fuel → (Danger z → ∃ P rest, ctx = P :: rest ∧ isRed P.sib = false) →
                ∃ t m, insLoop cmp key value fuel ({ d := d, dir := dir, sib := z' } :: ctx) z = some t ∧ RBal t m := by
              intro z z' dir hz hz' rz rz' hdd hfu hdg
              refine ih (n := n) ⟨hz, ⟨hz', by simp [hd, rz', hpar, hi.cbal]⟩, fun _ => rz, ?_, ?_, ?_⟩ (.inl hfu)
              · intro hx _
                obtain ⟨P, rest, rfl, hP⟩ := hdg hx
                exact ⟨_, P, rest, rfl, hP⟩
              · rintro d2 l2 r2 rfl hr2; simp [hr2] at rz
              · intro f hf; simp at hf; rcases hf with rfl | hf
                · exact hdd
                · exact hi.dirs f hf
            by_cases hlt : cmp d.key key < 0
            · simp only [hlt, if_true] at hnext hfuel ⊢
              exact go _ _ true hb.2.1 hb.1 hb.2.2.2 hb.2.2.1 (by simp [hlt]) hfuel hnext
            · simp only [hlt, if_false] at hnext hfuel ⊢
              exact go _ _ false hb.1 hb.2.1 hb.2.2.1 hb.2.2.2 (by simp [hlt]) hfuel hnext

/-- The package's invariant: black root, valid colours and black heights. -/
def Balanced (t : RTree K V) : Prop := isRed t = false ∧ ∃ n, RBal t n

theorem insert_balanced [Inhabited V] {t : RTree K V} (h : Balanced t) (key : K) (value : V) (hrefl : cmp key key = 0) :
    ∃ t', insert cmp t key value = some t' ∧ Balanced t' := by
  obtain ⟨hr, n, hn⟩ := h
  cases t with
  | nil => exact ⟨_, rfl, rfl, 1, (RBal_black rfl).2 ⟨0, rfl, rfl, rfl⟩⟩
  | node d l r =>
    obtain ⟨t, m, h1, h2⟩ := insLoop_balanced (cmp := cmp) (value := value) hrefl (fuel := 2 * (BTree.node d l r).height + 2)
      (ctx := []) (foc := .node d l r) (n := n)
      ⟨hn, trivial, by simp [parentRed], by simp [parentRed], by rintro d' l' r' he hx; cases he; simp [hx] at hr, by simp⟩
      (.inl (by omega))
    refine ⟨setRed false t, ?_, isRed_setRed_false t, h2.setRed_false⟩
    simp only [insert, h1, Option.map_some]

/-! ## del -/

theorem parentRed_setTgt (k : K) (v : V) (ctx : List (Frame K V)) : parentRed (setTgt k v ctx) = parentRed ctx := by
  cases ctx with
  | nil => rfl
  | cons f fs => simp only [setTgt]; split <;> rfl

theorem CBal_setTgt (k : K) (v : V) (ctx : List (Frame K V)) (n : Nat) (h : CBal ctx n) : CBal (setTgt k v ctx) n := by
  induction ctx generalizing n with
  | nil => exact h
  | cons f fs ih =>
    obtain ⟨h1, h2⟩ := h
    simp only [setTgt]
    split
    · exact ⟨h1, h2⟩
    · refine ⟨h1, ?_⟩
      split
      · rename_i hx; simp only [hx, if_true] at h2
        exact ⟨h2.1, by rw [parentRed_setTgt]; exact h2.2.1, ih _ h2.2.2⟩
      · rename_i hx; simp only [hx] at h2; exact ih _ h2

/-- Invariant of the deletion loop: the context is valid and the node above the hole is red, or the subtree in the
hole is red, or the node above is the root and its other child is not red. -/
structure DelBal (ctx : List (Frame K V)) (foc : RTree K V) (n : Nat) : Prop where
  bal : RBal foc n
  cbal : CBal ctx n
  par : parentRed ctx = true → isRed foc = false
  red : ctx = [] ∨ parentRed ctx = true ∨ isRed foc = true ∨ ∃ P, ctx = [P] ∧ isRed P.sib = false

theorem delFix_balanced {ctx : List (Frame K V)} {f : Frame K V} {x : RTree K V} {n : Nat}
    (h : DelBal ctx (.mk2 f.d f.dir x f.sib) n) : ∃ m, DelBal (delFix ctx f x) x m := by
  obtain ⟨hbal, hcb, hpar, hred⟩ := h
  have hpar' : parentRed ctx = true → f.d.red = false := by simpa using hpar
  unfold delFix
  cases hfr : f.d.red
  · obtain ⟨m, rfl, hx, hy⟩ := (RBal_mk2_black hfr).1 hbal
    cases hxr : isRed x
    · simp only [Bool.not_false, Bool.and_self, if_true]
      have hsib : isRed f.sib = false → ∃ m, DelBal (delFix.delSib ctx f) x m := by
        intro hyr
        have hred' : ctx = [] ∨ parentRed ctx = true ∨ ∃ P, ctx = [P] ∧ isRed P.sib = false := by
          rcases hred with h | h | h | h
          · exact .inl h
          · exact .inr (.inl h)
          · simp [hfr] at h
          · exact .inr (.inr h)
        unfold delFix.delSib
        cases ctx with
        | nil =>
          simp only
          refine ⟨m, hx, ⟨hy, by simp [hfr, CBal]⟩, fun _ => hxr, .inr (.inr (.inr ⟨f, rfl, hyr⟩))⟩
        | cons P rest =>
          simp only
          obtain ⟨c1, c2⟩ := hcb
          have hsr : isRed P.sib = false := by
            rcases hred' with h | h | ⟨P', h, h'⟩
            · cases h
            · have hPr : P.d.red = true := h
              simp only [hPr, if_true] at c2; exact c2.1
            · cases h; exact h'
          cases hs : P.sib with
          | nil => rw [hs] at c1; simp at c1
          | node sd sl sr =>
            rw [hs] at c1 hsr
            have hsd : sd.red = false := by simpa using hsr
            obtain ⟨m', hm', hsl, hsr'⟩ := (RBal_black hsd).1 c1
            cases hm'
            -- what is above the parent, once the parent's part is rebuilt with black height m + 1
            have habove : CBal rest (m + 1) ∧ (parentRed rest = false ∨ rest = []) := by
              rcases hred' with h | h | ⟨P', h, _⟩
              · cases h
              · have hPr : P.d.red = true := h
                simp only [hPr, if_true] at c2
                exact ⟨c2.2.2, .inl c2.2.1⟩
              · cases h; exact ⟨trivial, .inr rfl⟩
            have hab2 : parentRed rest = false := by
              rcases habove.2 with h | rfl
              · exact h
              · rfl
            have hsgl : ∀ (zd : RD K V) (zl zr : RTree K V), (BTree.node sd sl sr).child (!P.dir) = .node zd zl zr → zd.red = true →
                isRed ((BTree.node sd sl sr).child P.dir) = false →
                ∃ m, DelBal (delFix.single P f rest sd (.node sd sl sr)) x m := by
              intro zd zl zr hz hzr hc
              have hzb : RBal ((BTree.node sd sl sr).child (!P.dir)) m := by cases P.dir <;> simpa
              have hcb' : RBal ((BTree.node sd sl sr).child P.dir) m := by cases P.dir <;> simpa
              unfold delFix.single
              refine ⟨m, hx, ⟨hy, ?_⟩, fun _ => hxr, .inr (.inl rfl)⟩
              simp only [col_red, if_true, hyr, parentRed, true_and]
              refine ⟨hcb', ?_⟩
              simp only [col_red, Bool.false_eq_true, if_false]
              refine ⟨hzb.blacken (by rw [hz]; exact hzr), ?_⟩
              simp only [col_red, if_true, isRed_setRed_false, true_and]
              exact ⟨hab2, habove.1⟩
            simp only
            by_cases hk : isRed sl = false ∧ isRed sr = false
            · simp only [hk.1, hk.2, Bool.not_false, Bool.and_self, if_true]
              refine ⟨m, hx, ⟨hy, ?_⟩, fun _ => hxr, .inr (.inl rfl)⟩
              simp only [col_red, if_true, hyr, parentRed, true_and]
              refine ⟨(RBal_red rfl).2 ⟨hsl, hsr', hk.1, hk.2⟩, ?_⟩
              simp only [col_red, Bool.false_eq_true, if_false]
              exact habove.1
            · have hk' : (!isRed sl && !isRed sr) = false := by
                cases h1 : isRed sl <;> cases h2 : isRed sr <;> simp_all
              simp only [hk', Bool.false_eq_true, if_false]
              have hother : isRed ((BTree.node sd sl sr).child P.dir) = false → ∃ zd zl zr, (BTree.node sd sl sr).child (!P.dir) = .node zd zl zr ∧ zd.red = true := by
                intro hc
                have : isRed ((BTree.node sd sl sr).child (!P.dir)) = true := by
                  cases hd : P.dir <;> rw [hd] at hc <;> simp at hc ⊢ <;>
                    (cases h1 : isRed sl <;> cases h2 : isRed sr <;> simp_all)
                cases hz : (BTree.node sd sl sr).child (!P.dir) with
                | nil => rw [hz] at this; simp at this
                | node zd zl zr => rw [hz] at this; exact ⟨zd, zl, zr, rfl, by simpa using this⟩
              cases hx' : (BTree.node sd sl sr).child P.dir with
              | nil =>
                simp only
                obtain ⟨zd, zl, zr, h1, h2⟩ := hother (by rw [hx']; rfl)
                exact hsgl zd zl zr h1 h2 (by rw [hx']; rfl)
              | node xd xl xr =>
                simp only
                cases hxd : xd.red
                · simp only [Bool.false_eq_true, if_false]
                  obtain ⟨zd, zl, zr, h1, h2⟩ := hother (by rw [hx']; exact hxd)
                  exact hsgl zd zl zr h1 h2 (by rw [hx']; exact hxd)
                · simp only [if_true]
                  have hxb : RBal (.node xd xl xr) m := by
                    rw [← hx']; cases P.dir <;> simpa
                  have hzb : RBal ((BTree.node sd sl sr).child (!P.dir)) m := by cases P.dir <;> simpa
                  refine ⟨m, hx, ⟨hy, ?_⟩, fun _ => hxr, .inr (.inl rfl)⟩
                  simp only [col_red, if_true, hyr, parentRed, true_and]
                  refine ⟨(RBal_child_red hxd hxb P.dir).1, ?_⟩
                  simp only [col_red, Bool.false_eq_true, if_false]
                  refine ⟨(RBal_mk2_black rfl).2 ⟨m, rfl, (RBal_child_red hxd hxb _).1, hzb⟩, ?_⟩
                  simp only [col_red, if_true, isRed_mk2, true_and]
                  exact ⟨hab2, habove.1⟩
      cases hs : f.sib with
      | nil => simp only; exact hsib (by rw [hs]; rfl)
      | node yd yl yr =>
        simp only
        cases hyd : yd.red
        · simp only [Bool.false_eq_true, if_false]; exact hsib (by rw [hs]; exact hyd)
        · simp only [if_true]
          rw [hs] at hy
          refine ⟨m, hx, ⟨(RBal_child_red hyd hy f.dir).1, ?_⟩, fun _ => hxr, .inr (.inl rfl)⟩
          simp only [col_red, if_true]
          refine ⟨(RBal_child_red hyd hy f.dir).2, rfl, (RBal_child_red hyd hy _).1, ?_⟩
          simp only [col_red, Bool.false_eq_true, if_false]
          exact hcb
    · simp only [Bool.not_true, Bool.and_false, Bool.false_eq_true, if_false]
      refine ⟨m, hx, ⟨hy, by simp [hfr, hcb]⟩, ?_, .inr (.inr (.inl hxr))⟩
      intro h; simp [parentRed, hfr] at h
  · simp only [Bool.not_true, Bool.false_and, Bool.false_eq_true, if_false]
    obtain ⟨hx, hy, rx, ry⟩ := (RBal_mk2_red hfr).1 hbal
    refine ⟨n, hx, ⟨hy, ?_⟩, fun _ => rx, .inr (.inl hfr)⟩
    simp only [hfr, if_true, ry, true_and]
    refine ⟨?_, hcb⟩
    cases h : parentRed ctx
    · rfl
    · have := hpar' h; rw [hfr] at this; cases this

theorem delEnd_balanced {ctx : List (Frame K V)} {n : Nat} (h : DelBal ctx (.nil : RTree K V) n) :
    ∃ m, RBal (delEnd ctx).1 m := by
  obtain ⟨hbal, hcb, hpar, hred⟩ := h
  have hn : n = 0 := hbal
  subst hn
  cases ctx with
  | nil => exact ⟨0, rfl⟩
  | cons f rest =>
    have hwhole : ∃ m, RBal (plug (.mk2 f.d f.dir .nil f.sib) rest) m := by
      have := RBal_plug (t := .nil) (n := 0) (ctx := f :: rest) rfl hcb (fun _ => rfl)
      exact this
    -- the last node is a red leaf or the root
    have hsplice : f.sib = .nil ∧ CBal rest 0 ∨ f.sib = .nil ∧ rest = [] := by
      obtain ⟨c1, c2⟩ := hcb
      have hnil : isRed f.sib = false → f.sib = .nil := by
        intro hr
        cases hs : f.sib with
        | nil => rfl
        | node sd sl sr =>
          rw [hs] at c1 hr
          obtain ⟨m, h, _⟩ := (RBal_black (by simpa using hr)).1 c1
          cases h
      rcases hred with h | h | h | ⟨P, h, h'⟩
      · cases h
      · have hf : f.d.red = true := h
        simp only [hf, if_true] at c2
        exact .inl ⟨hnil c2.1, c2.2.2⟩
      · simp at h
      · cases h; exact .inr ⟨hnil h', rfl⟩
    simp only [delEnd]
    split
    · rcases hsplice with ⟨h1, h2⟩ | ⟨h1, rfl⟩
      · rw [h1]; exact RBal_plug (n := 0) rfl h2 (fun _ => rfl)
      · rw [h1]; exact ⟨0, rfl⟩
    · split
      · rcases hsplice with ⟨h1, h2⟩ | ⟨h1, rfl⟩
        · rw [h1]; exact RBal_plug (n := 0) rfl (CBal_setTgt _ _ _ _ h2) (fun _ => by rfl)
        · rw [h1]; exact ⟨0, rfl⟩
      · exact hwhole

theorem delLoop_balanced {key : K} {ctx : List (Frame K V)} {foc : RTree K V} {n : Nat} (h : DelBal ctx foc n) :
    ∃ m, RBal (delLoop cmp key ctx foc).1 m := by
  induction foc generalizing ctx n with
  | nil => exact delEnd_balanced h
  | node d l r ihl ihr =>
    unfold delLoop
    simp only
    split
    · obtain ⟨m, hm⟩ := delFix_balanced (f := { d := d, dir := true, sib := l, tgt := false }) (x := r) (by simpa using h)
      exact ihr hm
    · obtain ⟨m, hm⟩ := delFix_balanced (f := { d := d, dir := false, sib := r, tgt := decide (cmp d.key key = 0) }) (x := l) (by simpa using h)
      exact ihl hm

theorem del_balanced {t : RTree K V} (h : Balanced t) (key : K) : Balanced (del cmp t key).1 := by
  obtain ⟨hr, n, hn⟩ := h
  obtain ⟨m, hm⟩ := delLoop_balanced (cmp := cmp) (key := key) (ctx := []) (foc := t) (n := n)
    ⟨hn, trivial, by simp [parentRed], .inl rfl⟩
  exact ⟨isRed_setRed_false _, hm.setRed_false⟩

/-! ## Height -/

theorem RBal.size_ge {t : RTree K V} {n : Nat} (h : RBal t n) : 2 ^ n ≤ t.size + 1 := by
  induction t generalizing n with
  | nil => cases h; simp
  | node d l r ihl ihr =>
    cases hd : d.red
    · obtain ⟨m, rfl, hl, hr⟩ := (RBal_black hd).1 h
      have := ihl hl
      have := ihr hr
      simp only [BTree.size_node, Nat.pow_succ]
      omega
    · have hb := (RBal_red hd).1 h
      have := ihl hb.1
      simp only [BTree.size_node]
      omega

theorem RBal.height_le {t : RTree K V} {n : Nat} (h : RBal t n) :
    t.height ≤ 2 * n + (if isRed t = true then 1 else 0) := by
  induction t generalizing n with
  | nil => simp
  | node d l r ihl ihr =>
    cases hd : d.red
    · obtain ⟨m, rfl, hl, hr⟩ := (RBal_black hd).1 h
      have h1 := ihl hl
      have h2 := ihr hr
      simp only [BTree.height_node, isRed_node, hd]
      split at h1 <;> split at h2 <;> simp <;> omega
    · have hb := (RBal_red hd).1 h
      have h1 := ihl hb.1
      have h2 := ihr hb.2.1
      simp only [hb.2.2.1, hb.2.2.2] at h1 h2
      simp only [BTree.height_node, isRed_node, hd]
      simp at h1 h2 ⊢
      omega

theorem Balanced.height_le {t : RTree K V} (h : Balanced t) : t.height ≤ 2 * Nat.log2 (t.size + 1) := by
  obtain ⟨hr, n, hn⟩ := h
  have h1 := hn.height_le
  have h2 := hn.size_ge
  simp only [hr] at h1
  have : n ≤ Nat.log2 (t.size + 1) := (Nat.le_log2 (by omega)).2 h2
  simp at h1
  omega

end Verif.RB
