import Verif.IP.History

/-! # UpdateDescendants -/

namespace Verif.IP
open Verif Verif.Num
variable {V : Type} {σ : Type}

/-- Thread a state through a list. -/
def accum {α : Type} (h : α → σ → α × σ) : List α → σ → List α × σ
  | [], s => ([], s)
  | x :: xs, s => ((h x s).1 :: (accum h xs (h x s).2).1, (accum h xs (h x s).2).2)

theorem accum_append {α : Type} (h : α → σ → α × σ) (xs ys : List α) (s : σ) :
    accum h (xs ++ ys) s = ((accum h xs s).1 ++ (accum h ys (accum h xs s).2).1, (accum h ys (accum h xs s).2).2) := by
  induction xs generalizing s with
  | nil => rfl
  | cons x xs ih => simp [accum, ih]

theorem accum_id {α : Type} {h : α → σ → α × σ} {xs : List α} (hid : ∀ x ∈ xs, ∀ s, h x s = (x, s)) (s : σ) : accum h xs s = (xs, s) := by
  induction xs generalizing s with
  | nil => rfl
  | cons x xs ih =>
    simp only [accum, hid x (by simp) s]
    rw [ih (fun y hy => hid y (by simp [hy]))]

theorem accum_congr {α : Type} {h h' : α → σ → α × σ} {xs : List α} (he : ∀ x ∈ xs, ∀ s, h x s = h' x s) (s : σ) : accum h xs s = accum h' xs s := by
  induction xs generalizing s with
  | nil => rfl
  | cons x xs ih =>
    simp only [accum, he x (by simp) s]
    rw [ih (fun y hy => he y (by simp [hy]))]

theorem accum_flatMap {α β : Type} {h : β → σ → β × σ} {h' : α → σ → α × σ} {φ : α → List β} {xs : List α}
    (he : ∀ x ∈ xs, ∀ s, accum h (φ x) s = (φ (h' x s).1, (h' x s).2)) (s : σ) :
    accum h (xs.flatMap φ) s = ((accum h' xs s).1.flatMap φ, (accum h' xs s).2) := by
  induction xs generalizing s with
  | nil => rfl
  | cons x xs ih =>
    rw [List.flatMap_cons, accum_append, he x (by simp)]
    simp only [accum]
    rw [ih (fun y hy => he y (by simp [hy]))]
    simp

theorem accum_map {α β : Type} {h : β → σ → β × σ} {h' : α → σ → α × σ} {φ : α → β} {xs : List α}
    (he : ∀ x ∈ xs, ∀ s, h (φ x) s = (φ (h' x s).1, (h' x s).2)) (s : σ) :
    accum h (xs.map φ) s = ((accum h' xs s).1.map φ, (accum h' xs s).2) := by
  induction xs generalizing s with
  | nil => rfl
  | cons x xs ih =>
    rw [List.map_cons]
    simp only [accum, he x (by simp)]
    rw [ih (fun y hy => he y (by simp [hy]))]
    simp

/-- One element of the specification. -/
def specStep (cb : σ → IPNet → V → (V × Bool) × σ) (f : Fam) (p : List Bool) (x : IPNet × V) (s : σ) : (IPNet × V) × σ :=
  if strictlyBelow f p x.1 then ((x.1, (callBack cb x.1 x.2 s).1), (callBack cb x.1 x.2 s).2) else (x, s)

theorem updateBelow_eq (cb : σ → IPNet → V → (V × Bool) × σ) (f : Fam) (p : List Bool) (xs : List (IPNet × V)) (s : σ) :
    updateBelow cb f p xs s = accum (specStep cb f p) xs s := by
  induction xs generalizing s with
  | nil => rfl
  | cons x xs ih =>
    obtain ⟨k, v⟩ := x
    rw [updateBelow]
    by_cases hb : strictlyBelow f p k = true
    · simp [hb, accum, specStep, ih, callBack]
    · simp [hb, accum, specStep, ih]

theorem strictlyBelow_canon {k : IPNet} {f : Fam} {q : List Bool} (h : IsCanonNet k f q) (p : List Bool) :
    strictlyBelow f p k = true ↔ p <+: q ∧ p ≠ q := by
  unfold strictlyBelow
  have hl : onesOf k.mask = q.length := IsNet.ones h.1
  have ht : (bitsBE k.ip).take q.length = q := by rw [h.2]; simp
  rw [hl, ht, h.1.1]
  simp only [BEq.rfl, Bool.true_and, Bool.and_eq_true, List.isPrefixOf_iff_prefix, decide_eq_true_eq]
  constructor
  · rintro ⟨h1, h2⟩; exact ⟨h1, by rintro rfl; omega⟩
  · rintro ⟨h1, h2⟩
    refine ⟨h1, ?_⟩
    have := h1.length_le
    rcases Nat.lt_or_ge p.length q.length with h | h
    · exact h
    · exact absurd (h1.eq_of_length_le h) h2

theorem strictlyBelow_fam {k : IPNet} {f g : Fam} {q : List Bool} (h : IsCanonNet k g q) (hfg : f ≠ g) (p : List Bool) :
    strictlyBelow f p k = false := by
  unfold strictlyBelow
  rw [h.1.1]
  cases f <;> cases g <;> simp [Fam.len] at hfg ⊢

/-! ## Radix trees -/

section
variable {w : Nat} {W : Type}

/-- The node update as a state-threading function. -/
def setVal (f : ND w W → σ → W × σ) (n : ND w W) (s : σ) : ND w W × σ := ({ n with value := (f n s).1 }, (f n s).2)

theorem enumerate_updWalk (f : ND w W → σ → W × σ) (t : NTree w W) (s : σ) :
    (enumerate (updWalk f t s).1, (updWalk f t s).2) = accum (setVal f) (enumerate t) s := by
  induction t generalizing s with
  | nil => rfl
  | node n l r ihl ihr =>
    simp only [updWalk, enumerate]
    by_cases hn : n.leaf = true
    · simp only [hn, if_true]
      rw [List.append_assoc, List.singleton_append]
      simp only [accum, accum_append]
      rw [show (setVal f n s).2 = (f n s).2 from rfl, show (setVal f n s).1 = { n with value := (f n s).1 } from rfl]
      rw [← ihl, ← ihr]
      simp [hn]
    · have hn' : n.leaf = false := by simpa using hn
      simp only [hn', Bool.false_eq_true, if_false]
      simp only [List.nil_append, accum_append]
      rw [← ihl, ← ihr]

theorem enumerate_updDesc (f : ND w W → σ → W × σ) (n : ND w W) (l r : NTree w W) (s : σ) :
    (enumerate (updDesc f (.node n l r) s).1, (updDesc f (.node n l r) s).2) =
      ((if n.leaf then [n] else []) ++ (accum (setVal f) (enumerate l ++ enumerate r) s).1, (accum (setVal f) (enumerate l ++ enumerate r) s).2) := by
  simp only [updDesc, enumerate]
  rw [accum_append, ← enumerate_updWalk, ← enumerate_updWalk]
  simp

/-- `f` on the strict descendants of `p`, nothing elsewhere. -/
def stepBelow (f : ND w W → σ → W × σ) (p : List Bool) (n : ND w W) (s : σ) : ND w W × σ :=
  if p <+: n.sig ∧ p ≠ n.sig then setVal f n s else (n, s)

theorem below_children {P : List Bool} {n : ND w W} {l r : NTree w W} (h : WF P (.node n l r)) :
    ∀ m ∈ enumerate l ++ enumerate r, n.sig <+: m.sig ∧ n.sig ≠ m.sig := by
  intro m hm
  obtain ⟨_, _, _, hl, hr⟩ := h
  have key : ∀ b : Bool, n.sig ++ [b] <+: m.sig → n.sig <+: m.sig ∧ n.sig ≠ m.sig := by
    intro b hb
    refine ⟨(List.prefix_append _ _).trans hb, fun he => ?_⟩
    have := hb.length_le
    rw [← he] at this; simp at this; omega
  rw [List.mem_append] at hm
  rcases hm with hm | hm
  · exact key _ (hl.enumerate_prop m hm).1
  · exact key _ (hr.enumerate_prop m hm).1

variable [LawfulKeySize w]

/-- In-place work at the target changes the listing exactly where `h` acts. -/
theorem enumerate_updTarget {P : List Bool} {t : NTree w W} (hw : WF P t) (k : BitVec w) {b : Nat} (hb : b ≤ w)
    (g : NTree w W → σ → NTree w W × σ) (h : ND w W → σ → ND w W × σ)
    (hid : ∀ n s, ¬ sig k b <+: n.sig → h n s = (n, s)) {Q : ND w W → Prop} (hQ : ∀ m ∈ enumerate t, Q m)
    (hg : ∀ P n l r s, WF P (.node n l r) → Q n → n.leaf = true → n.sig = sig k b →
      (enumerate (g (.node n l r) s).1, (g (.node n l r) s).2) = accum h (enumerate (.node n l r)) s)
    (hstored : (den t (sig k b)).isSome = true) (s : σ) :
    (enumerate (updTarget g t k b s).1, (updTarget g t k b s).2) = accum h (enumerate t) s := by
  induction t generalizing P s with
  | nil => simp at hstored
  | node n l r ihl ihr =>
    have hwf := hw
    obtain ⟨h1, h2, h3, hl, hr⟩ := hw
    unfold updTarget
    obtain ⟨v, hv⟩ := Option.isSome_iff_exists.1 hstored
    have hpre := WF.den_node_prefix hwf hv
    have hle : n.bits ≤ b := by have := hpre.length_le; simpa using this
    rw [if_neg (by omega)]
    have hag : agree n.key k n.bits = true := (agree_iff_prefix h1 hle).2 hpre
    by_cases hbe : n.bits = b
    · rw [if_pos hbe]
      have hsig : n.sig = sig k b := hpre.eq_of_length (by simp [hbe])
      have hleaf : n.leaf = true := by
        have := hwf.children_none_self
        rw [den_node, ← hsig] at hv
        rw [this.1, this.2] at hv
        by_cases hlf : n.leaf = true
        · exact hlf
        · simp [hlf] at hv
      rw [hleaf, hag]
      simp only [Bool.and_self, if_true]
      exact hg P n l r s hwf (hQ n (by simp [enumerate, hleaf])) hleaf hsig
    · rw [if_neg hbe, hag]
      simp only [Bool.not_true, Bool.false_eq_true, if_false]
      have hlt : n.bits < b := by omega
      have hbr := sig_snoc_branch (k := k) hlt hb
      have hnk : n.sig = sig k n.bits := by
        have := List.prefix_iff_eq_take.1 hpre
        rw [length_sig, sig_take _ hle] at this; exact this
      rw [← hnk] at hbr
      have hself : ∀ s, h n s = (n, s) := fun s => hid n s (by
        intro hp; have := hp.length_le; simp at this; omega)
      have hselfl : ∀ s, accum h (if n.leaf = true then [n] else []) s = (if n.leaf = true then [n] else [], s) := by
        intro s
        apply accum_id
        intro x hx
        split at hx
        · simp at hx; subst hx; exact hself
        · simp at hx
      by_cases hbit : branch k n.bits = true
      · rw [if_pos hbit]
        rw [hbit] at hbr
        have hden : den r (sig k b) = some v := by
          rw [den_node] at hv
          have e1 : ¬ (n.leaf = true ∧ sig k b = n.sig) := by
            rintro ⟨_, e⟩; have := congrArg List.length e; simp at this; omega
          have e2 : den l (sig k b) = none := hl.den_eq_none fun hp => by
            have := snoc_prefix_inj hp hbr; simp at this
          simpa [e1, e2] using hv
        have hls : ∀ s, accum h (enumerate l) s = (enumerate l, s) := by
          intro s
          apply accum_id
          intro x hx s
          apply hid
          intro hp
          have := snoc_prefix_inj (hl.enumerate_prop x hx).1 (hbr.trans hp)
          simp at this
        simp only [enumerate]
        rw [accum_append, accum_append, hselfl, hls, ← ihr hr (fun m hm => hQ m (by simp [enumerate, hm])) (by rw [hden]; rfl)]
      · rw [if_neg hbit]
        rw [Bool.not_eq_true] at hbit
        rw [hbit] at hbr
        have hden : den l (sig k b) = some v := by
          rw [den_node] at hv
          have e1 : ¬ (n.leaf = true ∧ sig k b = n.sig) := by
            rintro ⟨_, e⟩; have := congrArg List.length e; simp at this; omega
          have e2 : den r (sig k b) = none := hr.den_eq_none fun hp => by
            have := snoc_prefix_inj hp hbr; simp at this
          simpa [e1, e2] using hv
        have hrs : ∀ s, accum h (enumerate r) s = (enumerate r, s) := by
          intro s
          apply accum_id
          intro x hx s
          apply hid
          intro hp
          have := snoc_prefix_inj (hr.enumerate_prop x hx).1 (hbr.trans hp)
          simp at this
        simp only [enumerate]
        rw [accum_append, accum_append, hselfl, ← ihl hl (fun m hm => hQ m (by simp [enumerate, hm])) (by rw [hden]; rfl), hrs]

/-- Nothing happens when the target is not stored. -/
theorem updTarget_absent {P : List Bool} {t : NTree w W} (hw : WF P t) (k : BitVec w) {b : Nat}
    (g : NTree w W → σ → NTree w W × σ) (hno : den t (sig k b) = none) (s : σ) : updTarget g t k b s = (t, s) := by
  induction t generalizing P with
  | nil => rfl
  | node n l r ihl ihr =>
    have hwf := hw
    obtain ⟨h1, h2, h3, hl, hr⟩ := hw
    unfold updTarget
    rw [den_node] at hno
    simp only [Option.or_eq_none_iff] at hno
    split
    · rfl
    · split
      · rename_i hbe
        split
        · rename_i hc
          simp only [Bool.and_eq_true] at hc
          have := (agree_iff_prefix h1 (Nat.le_of_eq hbe)).1 hc.2
          have hs : n.sig = sig k b := this.eq_of_length (by simp [hbe])
          have := hno.1.1
          simp [hc.1, hs] at this
        · rfl
      · split
        · rfl
        · split
          · rw [ihr hr hno.2]
          · rw [ihl hl hno.1.2]

/-- Nothing happens when nothing happens at the target. -/
theorem updTarget_same {P : List Bool} {t : NTree w W} (hw : WF P t) (k : BitVec w) {b : Nat}
    (g : NTree w W → σ → NTree w W × σ) {Q : ND w W → Prop} (hQ : ∀ m ∈ enumerate t, Q m) (s : σ)
    (hg : ∀ n l r, Q n → n.leaf = true → n.sig = sig k b → g (.node n l r) s = (.node n l r, s)) : updTarget g t k b s = (t, s) := by
  induction t generalizing P with
  | nil => rfl
  | node n l r ihl ihr =>
    obtain ⟨h1, h2, h3, hl, hr⟩ := hw
    unfold updTarget
    split
    · rfl
    · split
      · rename_i hbe
        split
        · rename_i hc
          simp only [Bool.and_eq_true] at hc
          have := (agree_iff_prefix h1 (Nat.le_of_eq hbe)).1 hc.2
          exact hg n l r (hQ n (by simp [enumerate, hc.1])) hc.1 (this.eq_of_length (by simp [hbe]))
        · rfl
      · split
        · rfl
        · split
          · rw [ihr hr (fun m hm => hQ m (by simp [enumerate, hm]))]
          · rw [ihl hl (fun m hm => hQ m (by simp [enumerate, hm]))]

omit [LawfulKeySize w] in
theorem wf_updWalk {P : List Bool} {t : NTree w W} (h : WF P t) (f : ND w W → σ → W × σ) (s : σ) :
    WF P (updWalk f t s).1 ∧ ((updWalk f t s).1 = .nil ↔ t = .nil) := by
  induction t generalizing P s with
  | nil => exact ⟨trivial, by simp [updWalk]⟩
  | node n l r ihl ihr =>
    obtain ⟨h1, h2, h3, hl, hr⟩ := h
    simp only [updWalk]
    refine ⟨⟨h1, h2, fun hn => ?_, (ihl hl _).1, (ihr hr _).1⟩, by simp⟩
    have := h3 hn
    exact ⟨fun e => this.1 ((ihl hl _).2.1 e), fun e => this.2 ((ihr hr _).2.1 e)⟩

omit [LawfulKeySize w] in
theorem wf_updDesc {P : List Bool} {t : NTree w W} (h : WF P t) (f : ND w W → σ → W × σ) (s : σ) :
    WF P (updDesc f t s).1 ∧ ((updDesc f t s).1 = .nil ↔ t = .nil) := by
  cases t with
  | nil => exact ⟨trivial, by simp [updDesc]⟩
  | node n l r =>
    obtain ⟨h1, h2, h3, hl, hr⟩ := h
    simp only [updDesc]
    refine ⟨⟨h1, h2, fun hn => ?_, (wf_updWalk hl f _).1, (wf_updWalk hr f _).1⟩, by simp⟩
    have := h3 hn
    exact ⟨fun e => this.1 ((wf_updWalk hl f _).2.1 e), fun e => this.2 ((wf_updWalk hr f _).2.1 e)⟩

omit [LawfulKeySize w] in
theorem wf_updTarget [KeySize w] {P : List Bool} {t : NTree w W} (h : WF P t) {g : NTree w W → σ → NTree w W × σ}
    (hg : ∀ P t s, WF P t → WF P (g t s).1 ∧ ((g t s).1 = .nil ↔ t = .nil)) (k : BitVec w) (b : Nat) (s : σ) :
    WF P (updTarget g t k b s).1 ∧ ((updTarget g t k b s).1 = .nil ↔ t = .nil) := by
  induction t generalizing P with
  | nil => exact ⟨trivial, by simp [updTarget]⟩
  | node n l r ihl ihr =>
    have hwf := h
    obtain ⟨h1, h2, h3, hl, hr⟩ := h
    unfold updTarget
    split
    · exact ⟨hwf, Iff.rfl⟩
    · split
      · split
        · exact hg _ _ _ hwf
        · exact ⟨hwf, Iff.rfl⟩
      · split
        · exact ⟨hwf, Iff.rfl⟩
        · split
          · refine ⟨⟨h1, h2, fun hn => ?_, hl, (ihr hr).1⟩, by simp⟩
            exact ⟨(h3 hn).1, fun e => (h3 hn).2 ((ihr hr).2.1 e)⟩
          · refine ⟨⟨h1, h2, fun hn => ?_, (ihl hl).1, hr⟩, by simp⟩
            exact ⟨fun e => (h3 hn).1 ((ihl hl).2.1 e), (h3 hn).2⟩

omit [LawfulKeySize w] in
theorem updDesc_below {P : List Bool} {n : ND w W} {l r : NTree w W} (h : WF P (.node n l r)) (f : ND w W → σ → W × σ) (s : σ) :
    (enumerate (updDesc f (.node n l r) s).1, (updDesc f (.node n l r) s).2) = accum (stepBelow f n.sig) (enumerate (.node n l r)) s := by
  rw [enumerate_updDesc]
  have e : enumerate (.node n l r) = (if n.leaf then [n] else []) ++ (enumerate l ++ enumerate r) := by simp [enumerate]
  rw [e, accum_append (xs := if n.leaf then [n] else [])]
  rw [accum_id (xs := if n.leaf then [n] else [])]
  · rw [accum_congr (h := stepBelow f n.sig) (h' := setVal f)]
    intro x hx s
    have := below_children h x hx
    simp [stepBelow, this]
  · intro x hx s
    split at hx
    · simp at hx; subst hx; simp [stepBelow]
    · simp at hx

/-- Numtree level: the update acts on the listing exactly as specified. -/
theorem updTarget_desc {P : List Bool} {t : NTree w W} (hw : WF P t) (k : BitVec w) {b : Nat} (hb : b ≤ w)
    (f : ND w W → σ → W × σ) (hstored : (den t (sig k b)).isSome = true) (s : σ) :
    (enumerate (updTarget (updDesc f) t k b s).1, (updTarget (updDesc f) t k b s).2) = accum (stepBelow f (sig k b)) (enumerate t) s := by
  refine enumerate_updTarget hw k hb _ _ ?_ (Q := fun _ => True) (fun _ _ => trivial) ?_ hstored s
  · intro n s hn; simp [stepBelow, hn]
  · intro P n l r s hwf _ _ hsig
    rw [← hsig]; exact updDesc_below hwf f s


omit [LawfulKeySize w] in
theorem all_updWalk {Q : ND w W → Prop} {f : ND w W → σ → W × σ} (hf : ∀ n s, Q n → Q { n with value := (f n s).1 })
    {t : NTree w W} (h : ∀ m ∈ enumerate t, Q m) (s : σ) : ∀ m ∈ enumerate (updWalk f t s).1, Q m := by
  induction t generalizing s with
  | nil => simp [updWalk, enumerate]
  | node n l r ihl ihr =>
    intro m hm
    simp only [updWalk, enumerate, List.mem_append] at hm
    rcases hm with (hm | hm) | hm
    · by_cases hn : n.leaf = true
      · simp only [hn, if_true, List.mem_singleton] at hm
        subst hm
        simpa [hn] using hf n s (h n (by simp [enumerate, hn]))
      · simp [hn] at hm
    · exact ihl (fun m hm => h m (by simp [enumerate, hm])) _ m hm
    · exact ihr (fun m hm => h m (by simp [enumerate, hm])) _ m hm

omit [LawfulKeySize w] in
theorem all_updDesc {Q : ND w W → Prop} {f : ND w W → σ → W × σ} (hf : ∀ n s, Q n → Q { n with value := (f n s).1 })
    {t : NTree w W} (h : ∀ m ∈ enumerate t, Q m) (s : σ) : ∀ m ∈ enumerate (updDesc f t s).1, Q m := by
  cases t with
  | nil => simp [updDesc, enumerate]
  | node n l r =>
    intro m hm
    simp only [updDesc, enumerate, List.mem_append] at hm
    rcases hm with (hm | hm) | hm
    · by_cases hn : n.leaf = true
      · simp only [hn, if_true, List.mem_singleton] at hm
        subst hm
        exact h m (by simp [enumerate, hn])
      · simp [hn] at hm
    · exact all_updWalk hf (fun m hm => h m (by simp [enumerate, hm])) _ m hm
    · exact all_updWalk hf (fun m hm => h m (by simp [enumerate, hm])) _ m hm

omit [LawfulKeySize w] in
theorem all_updTarget [KeySize w] {Q : ND w W → Prop} {g : NTree w W → σ → NTree w W × σ}
    (hg : ∀ t s, (∀ m ∈ enumerate t, Q m) → ∀ m ∈ enumerate (g t s).1, Q m)
    {t : NTree w W} (h : ∀ m ∈ enumerate t, Q m) (k : BitVec w) (b : Nat) (s : σ) : ∀ m ∈ enumerate (updTarget g t k b s).1, Q m := by
  induction t with
  | nil => simp [updTarget, enumerate]
  | node n l r ihl ihr =>
    unfold updTarget
    split
    · exact h
    · split
      · split
        · exact hg _ _ h
        · exact h
      · split
        · exact h
        · split
          · intro m hm
            simp only [enumerate, List.mem_append] at hm
            rcases hm with hm | hm
            · exact h m (by simp only [enumerate, List.mem_append]; exact .inl hm)
            · exact ihr (fun m hm => h m (by simp [enumerate, hm])) m hm
          · intro m hm
            simp only [enumerate, List.mem_append] at hm
            rcases hm with (hm | hm) | hm
            · exact h m (by simp only [enumerate, List.mem_append]; exact .inl (.inl hm))
            · exact ihl (fun m hm => h m (by simp [enumerate, hm])) m hm
            · exact h m (by simp only [enumerate, List.mem_append]; exact .inr hm)
end

/-! ## Lifting to networks -/

section
variable (cb : σ → IPNet → V → (V × Bool) × σ)

theorem lift4 {p : List Bool} {xs : List (ND 32 V)} (hb : ∀ n ∈ xs, n.bits ≤ 32) (s : σ) :
    accum (specStep cb .v4 p) (xs.map fun n => (key4 n, n.value)) s =
      ((accum (stepBelow (fun m => callBack cb (key4 m) m.value) p) xs s).1.map (fun n => (key4 n, n.value)),
        (accum (stepBelow (fun m => callBack cb (key4 m) m.value) p) xs s).2) := by
  apply accum_map
  intro n hn s
  have hc := strictlyBelow_canon (key4_canon (hb n hn)) p
  unfold specStep stepBelow
  by_cases h : p <+: n.sig ∧ p ≠ n.sig
  · rw [if_pos (hc.2 h), if_pos h]; rfl
  · rw [if_neg (fun e => h (hc.1 e)), if_neg h]

theorem lift6s {ms : BitVec 64} {p : List Bool} {xs : List (ND 64 V)} (hb : ∀ n ∈ xs, n.bits ≤ 64) (s : σ) :
    accum (specStep cb .v6 (sig ms 64 ++ p)) (xs.map fun n => (key6s ms n, n.value)) s =
      ((accum (stepBelow (fun m => callBack cb (key6s ms m) m.value) p) xs s).1.map (fun n => (key6s ms n, n.value)),
        (accum (stepBelow (fun m => callBack cb (key6s ms m) m.value) p) xs s).2) := by
  apply accum_map
  intro n hn s
  have hc := strictlyBelow_canon (key6s_canon (ms := ms) (hb n hn)) (sig ms 64 ++ p)
  have e : (sig ms 64 ++ p <+: sig ms 64 ++ n.sig ∧ sig ms 64 ++ p ≠ sig ms 64 ++ n.sig) ↔ (p <+: n.sig ∧ p ≠ n.sig) := by
    rw [List.prefix_append_right_inj]; simp
  rw [e] at hc
  unfold specStep stepBelow
  by_cases h : p <+: n.sig ∧ p ≠ n.sig
  · rw [if_pos (hc.2 h), if_pos h]; rfl
  · rw [if_neg (fun e => h (hc.1 e)), if_neg h]

theorem lift6_other {f : Fam} {p : List Bool} {n : ND 64 (TV V)} (hb : n.bits ≤ 64) (ht : Typed n.sig n.value)
    (hno : f = .v6 → ∀ r, (n.bits < 64 → r = []) → ¬ (p <+: n.sig ++ r ∧ p ≠ n.sig ++ r)) (s : σ) :
    accum (specStep cb f p) (enum6 n) s = (enum6 n, s) := by
  apply accum_id
  intro x hx s
  obtain ⟨r, h1, h2, _⟩ := enum6_typed hb ht x hx
  unfold specStep
  by_cases hf : f = .v6
  · subst hf
    rw [if_neg fun e => hno rfl r h2 ((strictlyBelow_canon h1 p).1 e)]
  · rw [strictlyBelow_fam h1 hf]; rfl

theorem lift6_short {p : List Bool} (hp : p.length < 64) {n : ND 64 (TV V)} (hb : n.bits ≤ 64) (ht : Typed n.sig n.value) (s : σ) :
    accum (specStep cb .v6 p) (enum6 n) s = (enum6 (stepBelow (upd6 cb) p n s).1, (stepBelow (upd6 cb) p n s).2) := by
  by_cases h : p <+: n.sig ∧ p ≠ n.sig
  · unfold stepBelow
    rw [if_pos h]
    rcases ht with ⟨h1, u, hu⟩ | ⟨h1, t, hs, h2, h3⟩
    · have := strictlyBelow_canon (key6_canon hb) p
      simp only [enum6, hu, accum, specStep, setVal, upd6, if_pos (this.2 h)]
      rfl
    · simp only [enum6, hs, setVal, upd6, Num.Enumerate]
      have e := enumerate_updWalk (fun m => callBack cb (key6s n.key m) m.value) t s
      have e1 := congrArg Prod.fst e
      have e2 := congrArg Prod.snd e
      simp only at e1 e2
      rw [e1, e2]
      apply accum_map
      intro m hm s
      have hc := strictlyBelow_canon (key6s_canon (ms := n.key) (h3.enumerate_prop m hm).2.1) p
      have hn : n.bits = 64 := by simpa using h1
      have : p <+: sig n.key 64 ++ m.sig ∧ p ≠ sig n.key 64 ++ m.sig := by
        rw [ND.sig, hn] at h
        refine ⟨h.1.trans (List.prefix_append _ _), fun e => ?_⟩
        rw [e] at hp; simp at hp; omega
      simp only [specStep, if_pos (hc.2 this)]
      rfl
  · have e : stepBelow (upd6 cb) p n s = (n, s) := by simp [stepBelow, h]
    rw [e]
    apply lift6_other cb hb ht
    rintro - r hr ⟨h1, h2⟩
    rcases ht with ⟨hl, _⟩ | ⟨hl, _⟩
    · have : r = [] := hr (by simpa using hl)
      subst this; simp at h1 h2; exact h ⟨h1, h2⟩
    · have : p <+: n.sig := List.prefix_of_prefix_length_le h1 (List.prefix_append _ _) (by omega)
      exact h ⟨this, fun e => by rw [e] at hp; omega⟩

/-- What happens to a node of `root64` for a target of 64 bits or more. -/
def stepLong (k : Pair64) (n : ND 64 (TV V)) (s : σ) : ND 64 (TV V) × σ :=
  if n.sig = sig k.msKey 64 then
    match n.value with
    | .sub s2 => ({ n with value := .sub (updSub cb k s2 s).1 }, (updSub cb k s2 s).2)
    | .user _ => (n, s)
  else (n, s)

theorem updSub_eq {k : Pair64} {s2 : NTree 64 V} (h : WF [] s2) (hst : (den s2 (sig k.lsKey k.lsBits)).isSome = true) (s : σ) :
    updSub cb k s2 s = updTarget (updDesc fun (m : ND 64 V) => callBack cb (key6s k.msKey m) m.value) s2 k.lsKey k.lsBits s := by
  cases s2 with
  | nil => simp at hst
  | node m l r =>
    simp only [updSub]
    split
    · rename_i he
      obtain ⟨e1, e2⟩ := he
      unfold updTarget
      rw [if_neg (by omega), if_pos e2]
      obtain ⟨v, hv⟩ := Option.isSome_iff_exists.1 hst
      have hsig : sig k.lsKey k.lsBits = m.sig := by rw [ND.sig, e1, e2]
      have hleaf : m.leaf = true := by
        have := h.children_none_self
        rw [den_node, hsig] at hv
        rw [this.1, this.2] at hv
        by_cases hlf : m.leaf = true
        · exact hlf
        · simp [hlf] at hv
      have hag : agree m.key k.lsKey m.bits = true := (agree_iff_prefix h.1 (Nat.le_of_eq e2)).2 (by rw [hsig]; exact List.prefix_rfl)
      simp [hleaf, hag]
    · rfl

/-- Updating below the target in the nested tree acts on its listing as specified. -/
def SubOk (k : Pair64) (s2 : NTree 64 V) : Prop :=
  ∀ s, (enumerate (updSub cb k s2 s).1, (updSub cb k s2 s).2) =
    accum (stepBelow (fun m => callBack cb (key6s k.msKey m) m.value) (sig k.lsKey k.lsBits)) (enumerate s2) s

theorem SubOk.stored {k : Pair64} {s2 : NTree 64 V} (h : WF [] s2) (hl : k.lsBits ≤ 64) (hst : (den s2 (sig k.lsKey k.lsBits)).isSome = true) :
    SubOk cb k s2 := by
  intro s
  rw [updSub_eq cb h hst, updTarget_desc h k.lsKey hl _ hst]

theorem SubOk.root {k : Pair64} {m : ND 64 V} {l r : NTree 64 V} (h : WF [] (.node m l r)) (h1 : m.key = k.lsKey) (h2 : m.bits = k.lsBits) :
    SubOk cb k (.node m l r) := by
  intro s
  simp only [updSub, h1, h2, and_self, if_true]
  have : sig k.lsKey k.lsBits = m.sig := by rw [ND.sig, h1, h2]
  rw [this]
  exact updDesc_below h _ s

theorem lift6_long {k : Pair64} (hm : k.msBits = 64) {n : ND 64 (TV V)} (hb : n.bits ≤ 64) (ht : Typed n.sig n.value)
    (hst : n.sig = sig k.msKey 64 → ∀ s2, n.value = .sub s2 → SubOk cb k s2) (s : σ) :
    accum (specStep cb .v6 k.bits) (enum6 n) s = (enum6 (stepLong cb k n s).1, (stepLong cb k n s).2) := by
  have hbits : k.bits = sig k.msKey 64 ++ sig k.lsKey k.lsBits := by simp [Pair64.bits, hm]
  unfold stepLong
  by_cases h : n.sig = sig k.msKey 64
  · rw [if_pos h]
    rcases ht with ⟨h1, _⟩ | ⟨h1, t, hs, h2, h3⟩
    · rw [h] at h1; simp at h1
    · have hst := hst h t hs s
      have hn : n.bits = 64 := by simpa using h1
      have hk : n.key = k.msKey := sig_full_inj (by rw [ND.sig, hn] at h; exact h)
      simp only [enum6, hs, Num.Enumerate]
      rw [hk, hbits, lift6s cb (fun m hm => (h3.enumerate_prop m hm).2.1), ← hst]
  · rw [if_neg h]
    apply lift6_other cb hb ht
    rintro - r hr ⟨h1, h2⟩
    rw [hbits] at h1 h2
    rcases ht with ⟨hl, _⟩ | ⟨hl, _⟩
    · have : r = [] := hr (by simpa using hl)
      subst this
      have := h1.length_le; simp at this hl; omega
    · exact h ((List.prefix_of_prefix_length_le ((List.prefix_append _ _).trans h1) (List.prefix_append _ _) (by rw [hl]; simp)).eq_of_length (by simp at hl ⊢; omega)).symm

/-! ## Invariants -/

theorem wf_updSub {k : Pair64} {s2 : NTree 64 V} (h : WF [] s2) (s : σ) :
    WF [] (updSub cb k s2 s).1 ∧ ((updSub cb k s2 s).1 = .nil ↔ s2 = .nil) := by
  cases s2 with
  | nil => exact ⟨trivial, by simp [updSub]⟩
  | node m l r =>
    simp only [updSub]
    split
    · exact wf_updDesc h _ _
    · exact wf_updTarget h (fun P t s hw => wf_updDesc hw _ _) _ _ _

theorem typed_upd6 {n : ND 64 (TV V)} {q : List Bool} (h : Typed q n.value) (s : σ) : Typed q (upd6 cb n s).1 := by
  rcases h with ⟨h1, u, hu⟩ | ⟨h1, t, ht, h2, h3⟩
  · refine .inl ⟨h1, ?_⟩
    simp only [upd6, hu]
    exact ⟨_, rfl⟩
  · refine .inr ⟨h1, ?_⟩
    simp only [upd6, ht]
    have := wf_updWalk h3 (fun m => callBack cb (key6s n.key m) m.value) s
    exact ⟨_, rfl, fun e => h2 (this.2.1 e), this.1⟩

theorem wf_updTarget6 {k : Pair64} {P : List Bool} {t : NTree 64 (TV V)} (h : WF P t) (s : σ) :
    WF P (updTarget6 cb k t s).1 ∧ ((updTarget6 cb k t s).1 = .nil ↔ t = .nil) := by
  cases t with
  | nil => exact ⟨trivial, by simp [updTarget6]⟩
  | node n l r =>
    simp only [updTarget6]
    split
    · exact ⟨⟨h.1, h.2.1, h.2.2.1, h.2.2.2.1, h.2.2.2.2⟩, by simp⟩
    · exact wf_updDesc h _ _

theorem all_updTarget6 {k : Pair64} {t : NTree 64 (TV V)} (h : ∀ m ∈ enumerate t, Typed m.sig m.value) (s : σ) :
    ∀ m ∈ enumerate (updTarget6 cb k t s).1, Typed m.sig m.value := by
  cases t with
  | nil => simp [updTarget6, enumerate]
  | node n l r =>
    simp only [updTarget6]
    split
    · rename_i s2 hs
      intro m hm
      simp only [enumerate, List.mem_append] at hm
      rcases hm with (hm | hm) | hm
      · by_cases hn : n.leaf = true
        · simp only [hn, if_true, List.mem_singleton] at hm
          subst hm
          have := h n (by simp [enumerate, hn])
          rw [hs] at this
          rcases this with ⟨_, u, hu⟩ | ⟨h1, t, ht, h2, h3⟩
          · cases hu
          · cases ht
            have hw := wf_updSub cb (k := k) h3 s
            exact .inr ⟨h1, _, rfl, fun e => h2 (hw.2.1 e), hw.1⟩
        · simp [hn] at hm
      · exact h m (by simp [enumerate, hm])
      · exact h m (by simp [enumerate, hm])
    · exact all_updDesc (Q := fun m => Typed m.sig m.value) (fun n s hn => typed_upd6 cb hn s) h s

theorem wf6_iff {t : NTree 64 (TV V)} : WF6 t ↔ WF [] t ∧ ∀ m ∈ enumerate t, Typed m.sig m.value := by
  constructor
  · intro h; exact ⟨h.1, fun m hm => (typed_of_mem h hm).1⟩
  · rintro ⟨h1, h2⟩
    refine ⟨h1, fun q v hq => ?_⟩
    obtain ⟨n, hn, rfl, rfl⟩ := (h1.mem_enumerate_iff _ _).1 hq
    exact h2 n hn

theorem updateDescendants_wf {t t' : Tree V} (h : WFT t) {n : Option IPNet} {s s' : σ}
    (hu : UpdateDescendants cb (some t) n s = some (some t', s')) : WFT t' := by
  cases n with
  | none => simp [UpdateDescendants] at hu
  | some n =>
    simp only [UpdateDescendants] at hu
    split at hu
    · simp only [Option.some.injEq, Prod.mk.injEq] at hu
      obtain ⟨rfl, _⟩ := hu
      exact ⟨(wf_updTarget h.v4 (fun P t s hw => wf_updDesc hw _ _) _ _ _).1, h.v6⟩
    · split at hu
      · simp only [Option.some.injEq, Prod.mk.injEq] at hu
        obtain ⟨rfl, _⟩ := hu
        exact h
      · simp only [Option.some.injEq, Prod.mk.injEq] at hu
        obtain ⟨rfl, _⟩ := hu
        refine ⟨h.v4, wf6_iff.2 ⟨(wf_updTarget h.v6.1 (fun P t s hw => wf_updTarget6 cb hw s) _ _ _).1, ?_⟩⟩
        exact all_updTarget (Q := fun m => Typed m.sig m.value) (fun t s ht => all_updTarget6 cb ht s) (wf6_iff.1 h.v6).2 _ _ _

/-! ## The main theorem -/

theorem clamp_nat {w b : Nat} (h : b ≤ w) : clamp w (b : Int) = b := by rw [clamp_eq, clampSpec_le h]

/-- A target of 64 bits or more, given what happens in the nested tree. -/
theorem updateDescendants_long {t : Tree V} (h : WFT t) {n : IPNet} {k : Pair64} (hn : IsNet n .v6 k.bits) (h1 : v6Pair n = some k) (hm : k.msBits = 64)
    {s2 : NTree 64 V} (hd : den t.root64 (sig k.msKey 64) = some (.sub s2)) (hok : SubOk cb k s2) (s : σ) :
    ∃ t' s', UpdateDescendants cb (some t) (some n) s = some (some t', s') ∧ (Enumerate (some t'), s') = updateBelow cb .v6 k.bits (Enumerate (some t)) s := by
  rw [updateBelow_eq]
  have h64 : ∀ m ∈ enumerate t.root64, m.bits ≤ 64 ∧ Typed m.sig m.value := fun m hm =>
    ⟨(h.v6.1.enumerate_prop m hm).2.1, (typed_of_mem h.v6 hm).1⟩
  have h4 := v4Key_of_v6 hn
  simp only [UpdateDescendants, h4, h1]
  refine ⟨_, _, rfl, ?_⟩
  rw [clamp_nat (w := 64) (by omega)]
  simp only [Enumerate, Num.Enumerate]
  rw [accum_append]
  have e4 : ∀ s, accum (specStep cb .v6 k.bits) ((enumerate t.root32).map fun n => (key4 n, n.value)) s =
      ((enumerate t.root32).map fun n => (key4 n, n.value), s) := by
    intro s
    apply accum_id
    intro x hx s
    obtain ⟨m, hm, rfl⟩ := List.mem_map.1 hx
    unfold specStep
    rw [strictlyBelow_fam (key4_canon (h.v4.enumerate_prop m hm).2.1) (by decide)]; rfl
  rw [e4]
  rw [accum_flatMap (h' := stepLong cb k) fun m hmm => lift6_long cb hm (h64 m hmm).1 (h64 m hmm).2
    (fun e s3 hs => by
      have := (typed_of_mem h.v6 hmm).2
      rw [e, hd, hs] at this
      cases this; exact hok)]
  rw [hm] at *
  have e := enumerate_updTarget h.v6.1 k.msKey (Nat.le_refl 64) (updTarget6 cb k) (stepLong cb k)
    (fun n s hn => by
      unfold stepLong; rw [if_neg]; intro e; exact hn (by rw [e]; exact List.prefix_rfl)) (Q := fun m => Typed m.sig m.value) (fun m hm => (h64 m hm).2)
    (by
      intro P m l r s hw hT hlf hsig
      have hl : m.sig.length = 64 := by rw [hsig]; simp
      rcases hT with ⟨h1, _⟩ | ⟨_, s2, hs, _, _⟩
      · omega
      · simp only [updTarget6, hs, enumerate, hlf, if_true]
        rw [List.append_assoc, List.singleton_append, List.append_assoc, List.singleton_append]
        simp only [accum]
        have hrest : ∀ s, accum (stepLong cb k) (enumerate l ++ enumerate r) s = (enumerate l ++ enumerate r, s) := by
          intro s
          apply accum_id
          intro x hx s
          have := (below_children hw x hx).2
          unfold stepLong; rw [if_neg]; rw [← hsig]; exact fun e => this e.symm
        rw [hrest]
        simp [stepLong, hsig, hs, hlf]) (by rw [hd]; rfl) s
  rw [← e]

theorem updateDescendants_stored {t : Tree V} (h : WFT t) {n : IPNet} {f : Fam} {p : List Bool} (hn : IsNet n f p)
    (hst : (denT t f p).isSome = true) (s : σ) :
    ∃ t' s', UpdateDescendants cb (some t) (some n) s = some (some t', s') ∧ (Enumerate (some t'), s') = updateBelow cb f p (Enumerate (some t)) s := by
  rw [updateBelow_eq]
  have h64 : ∀ m ∈ enumerate t.root64, m.bits ≤ 64 ∧ Typed m.sig m.value := fun m hm =>
    ⟨(h.v6.1.enumerate_prop m hm).2.1, (typed_of_mem h.v6 hm).1⟩
  cases f with
  | v4 =>
    obtain ⟨k, b, h1, h2, rfl⟩ := v4Key_of_isNet hn
    simp only [UpdateDescendants, h1]
    refine ⟨_, _, rfl, ?_⟩
    have e := updTarget_desc h.v4 k h2 (fun m => callBack cb (key4 m) m.value) hst s
    rw [clamp_nat h2]
    simp only [Enumerate, Num.Enumerate]
    rw [accum_append, lift4 cb (fun m hm => (h.v4.enumerate_prop m hm).2.1), ← e]
    have e6 : ∀ s, accum (specStep cb .v4 (sig k b)) ((enumerate t.root64).flatMap enum6) s = ((enumerate t.root64).flatMap enum6, s) := by
      intro s
      apply accum_id
      intro x hx s
      obtain ⟨m, hm, hx⟩ := List.mem_flatMap.1 hx
      obtain ⟨r, r1, _⟩ := enum6_typed (h64 m hm).1 (h64 m hm).2 x hx
      unfold specStep
      rw [strictlyBelow_fam r1 (by decide)]; rfl
    rw [e6]
  | v6 =>
    have h4 := v4Key_of_v6 hn
    obtain ⟨k, h1, hk, rfl⟩ := v6Pair_of_isNet hn
    simp only [UpdateDescendants, h4, h1]
    refine ⟨_, _, rfl, ?_⟩
    rw [clamp_nat hk.ms]
    simp only [Enumerate, Num.Enumerate]
    rw [accum_append]
    have e4 : ∀ s, accum (specStep cb .v6 k.bits) ((enumerate t.root32).map fun n => (key4 n, n.value)) s =
        ((enumerate t.root32).map fun n => (key4 n, n.value), s) := by
      intro s
      apply accum_id
      intro x hx s
      obtain ⟨m, hm, rfl⟩ := List.mem_map.1 hx
      unfold specStep
      rw [strictlyBelow_fam (key4_canon (h.v4.enumerate_prop m hm).2.1) (by decide)]; rfl
    rw [e4]
    simp only [denT] at hst
    by_cases hm : k.msBits < 64
    · have hb : k.bits = sig k.msKey k.msBits := by simp [Pair64.bits, hk.zero hm]
      rw [hb] at hst ⊢
      rw [den6_lt (by simpa using hm)] at hst
      have hst' : (den t.root64 (sig k.msKey k.msBits)).isSome = true := by
        cases hd : den t.root64 (sig k.msKey k.msBits) with
        | none => rw [hd] at hst; simp [userDen] at hst
        | some _ => rfl
      rw [accum_flatMap (h' := stepBelow (upd6 cb) (sig k.msKey k.msBits)) fun m hm' => lift6_short cb (by simpa using hm) (h64 m hm').1 (h64 m hm').2]
      have e := enumerate_updTarget h.v6.1 k.msKey hk.ms (updTarget6 cb k) (stepBelow (upd6 cb) (sig k.msKey k.msBits))
        (fun n s hn => by simp [stepBelow, hn]) (Q := fun m => Typed m.sig m.value) (fun m hm => (h64 m hm).2)
        (by
          intro P m l r s hw hT _ hsig
          have hl : m.sig.length < 64 := by rw [hsig]; simpa using hm
          rcases hT with ⟨_, u, hu⟩ | ⟨h1, _⟩
          · simp only [updTarget6, hu]
            rw [← hsig]; exact updDesc_below hw _ s
          · omega) hst' s
      rw [← e]
    · have hm' := hk.full hm
      have hbits : k.bits = sig k.msKey 64 ++ sig k.lsKey k.lsBits := by simp [Pair64.bits, hm']
      have hge : ¬ k.bits.length < 64 := by rw [hbits]; simp
      rw [den6_ge hge, (take_bits hm').1, (take_bits hm').2] at hst
      cases hd : den t.root64 (sig k.msKey 64) with
      | none => rw [hd] at hst; simp [subDen] at hst
      | some x =>
        rw [hd] at hst
        rcases h.v6.2 _ x hd with ⟨hl, _⟩ | ⟨_, s2, rfl, _, h3⟩
        · simp at hl
        · obtain ⟨t', s', g1, g2⟩ := updateDescendants_long cb h hn h1 hm' hd (.stored cb h3 hk.ls hst) s
          rw [updateBelow_eq] at g2
          simp only [UpdateDescendants, h4, h1, Option.some.injEq, Prod.mk.injEq] at g1
          obtain ⟨rfl, rfl⟩ := g1
          rw [clamp_nat hk.ms] at g2
          simp only [Enumerate, Num.Enumerate] at g2
          rw [accum_append, e4] at g2
          exact g2

theorem updSub_absent {k : Pair64} {s2 : NTree 64 V} (h : WF [] s2) (hst : den s2 (sig k.lsKey k.lsBits) = none)
    (hno : ¬ ∀ b, ∃ q v, sig k.lsKey k.lsBits ++ [b] <+: q ∧ den s2 q = some v) (s : σ) : updSub cb k s2 s = (s2, s) := by
  cases s2 with
  | nil => rfl
  | node m l r =>
    simp only [updSub]
    split
    · rename_i he
      exfalso
      have hsig : sig k.lsKey k.lsBits = m.sig := by rw [ND.sig, he.1, he.2]
      rw [hsig] at hst hno
      have hleaf : ¬ m.leaf = true := by
        intro hl; rw [den_node] at hst; simp [hl] at hst
      obtain ⟨_, _, h3, hl, hr⟩ := h
      have h3 := h3 (by simpa using hleaf)
      apply hno
      intro b
      cases b with
      | false =>
        obtain ⟨q, v, hq⟩ := hl.exists_den h3.1
        have hp := hl.den_prefix hq
        refine ⟨q, v, hp, ?_⟩
        rw [den_node]; simp [hleaf, hq]
      | true =>
        obtain ⟨q, v, hq⟩ := hr.exists_den h3.2
        have hp := hr.den_prefix hq
        refine ⟨q, v, hp, ?_⟩
        have e2 : den l q = none := hl.den_eq_none fun hp' => by
          have := snoc_prefix_inj hp' hp; simp at this
        rw [den_node]; simp [hleaf, e2, hq]
    · exact updTarget_absent h _ _ hst s

theorem updateDescendants_absent {t : Tree V} (h : WFT t) {n : IPNet} {f : Fam} {p : List Bool} (hn : IsNet n f p)
    (hst : denT t f p = none) (hp : f = .v4 ∨ p.length < 64 ∨ ¬ ∀ b, ∃ q v, p ++ [b] <+: q ∧ denT t f q = some v) (s : σ) :
    UpdateDescendants cb (some t) (some n) s = some (some t, s) := by
  cases f with
  | v4 =>
    obtain ⟨k, b, h1, h2, rfl⟩ := v4Key_of_isNet hn
    simp only [UpdateDescendants, h1]
    rw [clamp_nat h2, updTarget_absent h.v4 k _ hst]
  | v6 =>
    have h4 := v4Key_of_v6 hn
    obtain ⟨k, h1, hk, rfl⟩ := v6Pair_of_isNet hn
    simp only [UpdateDescendants, h4, h1]
    rw [clamp_nat hk.ms]
    simp only [denT] at hst hp
    by_cases hm : k.msBits < 64
    · have hb : k.bits = sig k.msKey k.msBits := by simp [Pair64.bits, hk.zero hm]
      rw [hb, den6_lt (by simpa using hm)] at hst
      have : den t.root64 (sig k.msKey k.msBits) = none := by
        cases hd : den t.root64 (sig k.msKey k.msBits) with
        | none => rfl
        | some x =>
          rw [hd] at hst
          rcases h.v6.2 _ x hd with ⟨_, u, rfl⟩ | ⟨hl, _⟩
          · simp [userDen] at hst
          · simp at hl; omega
      rw [updTarget_absent h.v6.1 k.msKey _ this]
    · have hm' := hk.full hm
      have hbits : k.bits = sig k.msKey 64 ++ sig k.lsKey k.lsBits := by simp [Pair64.bits, hm']
      have hge : ¬ k.bits.length < 64 := by rw [hbits]; simp
      have hp : ¬ ∀ b, ∃ q v, k.bits ++ [b] <+: q ∧ den6 t.root64 q = some v := by
        rcases hp with hp | hp | hp
        · cases hp
        · exact absurd hp hge
        · exact hp
      rw [den6_ge hge, (take_bits hm').1, (take_bits hm').2] at hst
      rw [hm', updTarget_same h.v6.1 k.msKey (updTarget6 cb k) (Q := fun m => m ∈ enumerate t.root64) (fun _ hm => hm) s]
      intro m l r hQ hlf hsig
      obtain ⟨hT, hd⟩ := typed_of_mem h.v6 hQ
      rw [hsig] at hd
      rw [hd] at hst
      rcases hT with ⟨h1, _⟩ | ⟨h1, s2, hs, h2, h3⟩
      · rw [hsig] at h1; simp at h1
      · have e : updSub cb k s2 s = (s2, s) := by
          apply updSub_absent cb h3
          · rw [hs] at hst; exact hst
          · intro hall
            apply hp
            intro b
            obtain ⟨q, v, q1, q2⟩ := hall b
            refine ⟨sig k.msKey 64 ++ q, v, ?_, ?_⟩
            · rw [hbits, List.append_assoc, List.prefix_append_right_inj]; exact q1
            · rw [den6_ge (by simp), List.take_left' (by simp), List.drop_left' (by simp), hd, hs]
              exact q2
        simp only [updTarget6, hs, e]
        rw [← hs]

/-- An absent target: nothing happens, or it is the root of a nested tree and the update runs as for a stored target. -/
theorem updateDescendants_either {t : Tree V} (h : WFT t) {n : IPNet} {f : Fam} {p : List Bool} (hn : IsNet n f p)
    (hst : denT t f p = none) (s : σ) :
    UpdateDescendants cb (some t) (some n) s = some (some t, s) ∨
    (f = .v6 ∧ 64 ≤ p.length ∧ (∀ b, ∃ q v, p ++ [b] <+: q ∧ denT t f q = some v) ∧
      (∀ q v, 64 ≤ q.length → q.take 64 = p.take 64 → denT t f q = some v → p <+: q) ∧
      ∃ t' s', UpdateDescendants cb (some t) (some n) s = some (some t', s') ∧ (Enumerate (some t'), s') = updateBelow cb f p (Enumerate (some t)) s) := by
  by_cases hp : f = .v4 ∨ p.length < 64
  · exact .inl (updateDescendants_absent cb h hn hst (hp.imp id .inl) s)
  · have hf : f = .v6 := by
      cases f with
      | v4 => exact absurd (.inl rfl) hp
      | v6 => rfl
    subst hf
    have h4 := v4Key_of_v6 hn
    obtain ⟨k, h1, hk, rfl⟩ := v6Pair_of_isNet hn
    have hm : k.msBits = 64 := by
      rcases Nat.lt_or_ge k.msBits 64 with hm | hm
      · exact absurd (.inr (by simp [Pair64.bits, hk.zero hm, hm])) hp
      · exact hk.full (by omega)
    have hbits : k.bits = sig k.msKey 64 ++ sig k.lsKey k.lsBits := by simp [Pair64.bits, hm]
    have hge : ¬ k.bits.length < 64 := by rw [hbits]; simp
    have hst0 := hst
    simp only [denT] at hst
    rw [den6_ge hge, (take_bits hm).1, (take_bits hm).2] at hst
    cases hd : den t.root64 (sig k.msKey 64) with
    | none =>
      left
      simp only [UpdateDescendants, h4, h1]
      rw [clamp_nat hk.ms, hm, updTarget_absent h.v6.1 k.msKey _ hd]
    | some x =>
      rw [hd] at hst
      rcases h.v6.2 _ x hd with ⟨hl, _⟩ | ⟨_, s2, rfl, h2, h3⟩
      · simp at hl
      · have hst2 : den s2 (sig k.lsKey k.lsBits) = none := hst
        by_cases hall : ∀ b, ∃ q v, sig k.lsKey k.lsBits ++ [b] <+: q ∧ den s2 q = some v
        · cases s2 with
          | nil => exact absurd rfl h2
          | node m l r =>
            by_cases he : m.key = k.lsKey ∧ m.bits = k.lsBits
            · right
              refine ⟨rfl, by omega, ?_, ?_, updateDescendants_long cb h hn h1 hm hd (.root cb h3 he.1 he.2) s⟩
              · intro b
                obtain ⟨q, v, q1, q2⟩ := hall b
                refine ⟨sig k.msKey 64 ++ q, v, ?_, ?_⟩
                · rw [hbits, List.append_assoc, List.prefix_append_right_inj]; exact q1
                · simp only [denT]
                  rw [den6_ge (by simp), List.take_left' (by simp), List.drop_left' (by simp), hd]
                  exact q2
              · intro q v hq ht hv
                simp only [denT] at hv
                rw [den6_ge (by omega), ht, (take_bits hm).1, hd] at hv
                have hv' : den (.node m l r) (q.drop 64) = some v := hv
                have hpre : m.sig <+: q.drop 64 := by
                  have hw : WF m.sig (.node m l r) := ⟨h3.1, List.prefix_rfl, h3.2.2⟩
                  exact hw.den_prefix hv'
                rw [ND.sig, he.1, he.2] at hpre
                rw [hbits]
                have hq2 : q = sig k.msKey 64 ++ q.drop 64 := by
                  rw [← (take_bits hm).1, ← ht, List.take_append_drop]
                rw [hq2, List.prefix_append_right_inj]
                exact hpre
            · left
              have e : ∀ s, updSub cb k (.node m l r) s = (.node m l r, s) := by
                intro s
                simp only [updSub]
                rw [if_neg he]
                exact updTarget_absent h3 _ _ hst2 s
              simp only [UpdateDescendants, h4, h1]
              rw [clamp_nat hk.ms, hm, updTarget_same h.v6.1 k.msKey (updTarget6 cb k) (Q := fun m => m ∈ enumerate t.root64) (fun _ hm => hm) s]
              intro m' l' r' hQ hlf hsig
              obtain ⟨hT, hd'⟩ := typed_of_mem h.v6 hQ
              rw [hsig, hd] at hd'
              have hs := (Option.some.inj hd').symm
              simp only [updTarget6, hs, e]
              rw [← hs]
        · left
          refine updateDescendants_absent cb h hn hst0 (.inr (.inr ?_)) s
          intro hall2
          apply hall
          intro b
          obtain ⟨q, v, q1, q2⟩ := hall2 b
          rw [hbits, List.append_assoc] at q1
          obtain ⟨r, hr⟩ := q1
          refine ⟨(sig k.lsKey k.lsBits ++ [b]) ++ r, v, List.prefix_append _ _, ?_⟩
          rw [List.append_assoc] at hr
          rw [← hr] at q2
          simp only [denT] at q2
          rw [den6_ge (by simp), List.take_left' (by simp), List.drop_left' (by simp), hd] at q2
          exact q2

theorem updateDescendants_bad {t : Option (Tree V)} {n : IPNet} (hn : ∀ f p, ¬ IsNet n f p) (s : σ) :
    UpdateDescendants cb t (some n) s = some (t, s) := by
  obtain ⟨h1, h2⟩ := keys_of_not hn
  simp [UpdateDescendants, h1, h2]

end
end Verif.IP
