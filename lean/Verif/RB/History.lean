import Verif.RB.Balance
import Verif.Spec.RedBlack

/-! # Histories of red-black tree operations -/

namespace Verif.RB
variable {K V : Type} {cmp : K → K → Int}

/-- Run a history (newest operation first) from the empty tree; `none` is a panic. -/
def run [Inhabited V] (cmp : K → K → Int) : List (KOp K V) → Option (RTree K V)
  | [] => some .nil
  | .insert k v :: ops => (run cmp ops).bind fun t => insert cmp t k v
  | .delete k :: ops => (run cmp ops).map fun t => (del cmp t k).1

theorem balanced_nil : Balanced (.nil : RTree K V) := ⟨rfl, 0, rfl⟩

theorem run_balanced [Inhabited V] (hrefl : ∀ k, cmp k k = 0) (ops : List (KOp K V)) :
    ∃ t, run cmp ops = some t ∧ Balanced t := by
  induction ops with
  | nil => exact ⟨_, rfl, balanced_nil⟩
  | cons op ops ih =>
    obtain ⟨t, h1, h2⟩ := ih
    cases op with
    | insert k v =>
      obtain ⟨t', h3, h4⟩ := insert_balanced (cmp := cmp) h2 k v (hrefl k)
      exact ⟨t', by simp [run, h1, h3], h4⟩
    | delete k => exact ⟨_, by simp [run, h1], del_balanced (cmp := cmp) h2 k⟩

theorem run_spec [Inhabited V] (hc : LawfulCmp cmp) {ops : List (KOp K V)} {t : RTree K V} (h : run cmp ops = some t) :
    Sorted cmp (enumerate t) ∧
    ∀ q, lookupL cmp q (enumerate t) = (firstSpelling cmp ops q).bind fun k => (lastWriteBy cmp ops q).map (k, ·) := by
  induction ops generalizing t with
  | nil => cases h; exact ⟨List.Pairwise.nil, fun q => rfl⟩
  | cons op ops ih =>
    cases op with
    | insert k v =>
      simp only [run] at h
      cases hr : run cmp ops with
      | none => simp [hr] at h
      | some t0 =>
        simp only [hr, Option.bind_some] at h
        obtain ⟨h1, h2⟩ := ih hr
        rw [insert_spec hc h h1]
        obtain ⟨h3, h4⟩ := h1.insertL hc k v
        refine ⟨h3, fun q => ?_⟩
        rw [h4]
        simp only [firstSpelling, lastWriteBy]
        split
        · have hsome : ∀ q, (firstSpelling cmp ops q).isSome = (lastWriteBy cmp ops q).isSome := by
            intro q
            clear hr h h1 h2 h3 h4 ih
            induction ops with
            | nil => rfl
            | cons op ops ih => cases op <;> simp only [firstSpelling, lastWriteBy] <;> split <;> simp [ih]
          rw [h2]
          have := hsome q
          cases h5 : firstSpelling cmp ops q <;> cases h6 : lastWriteBy cmp ops q <;> simp_all
        · exact h2 q
    | delete k =>
      simp only [run] at h
      cases hr : run cmp ops with
      | none => simp [hr] at h
      | some t0 =>
        simp only [hr, Option.map_some, Option.some.injEq] at h
        subst h
        obtain ⟨h1, h2⟩ := ih hr
        rw [(del_spec hc h1 k).1]
        obtain ⟨h3, h4⟩ := h1.eraseL hc k
        refine ⟨h3, fun q => ?_⟩
        rw [h4]
        simp only [firstSpelling, lastWriteBy]
        split
        · rfl
        · exact h2 q

theorem firstSpelling_isSome (ops : List (KOp K V)) (q : K) :
    (firstSpelling cmp ops q).isSome = (lastWriteBy cmp ops q).isSome := by
  induction ops with
  | nil => rfl
  | cons op ops ih => cases op <;> simp only [firstSpelling, lastWriteBy] <;> split <;> simp [ih]

theorem get_run [Inhabited V] (hc : LawfulCmp cmp) {ops : List (KOp K V)} {t : RTree K V} (h : run cmp ops = some t)
    (q : K) : get cmp t q = lastWriteBy cmp ops q := by
  obtain ⟨h1, h2⟩ := run_spec hc h
  rw [get_spec hc h1, h2]
  have := firstSpelling_isSome (cmp := cmp) ops q
  cases h5 : firstSpelling cmp ops q <;> cases h6 : lastWriteBy cmp ops q <;> simp_all

/-! ## List forms of insert and erase -/

theorem eraseL_eq_filter (hc : LawfulCmp cmp) {A : List (K × V)} (h : Sorted cmp A) (k : K) :
    eraseL cmp k A = A.filter fun p => decide (cmp p.1 k ≠ 0) := by
  induction A with
  | nil => rfl
  | cons a A ih =>
    obtain ⟨h1, h2⟩ := List.pairwise_cons.1 h
    simp only [eraseL, List.filter_cons]
    by_cases h0 : cmp a.1 k = 0
    · simp only [h0, if_true, ne_eq, not_true, decide_false, Bool.false_eq_true, if_false]
      rw [List.filter_eq_self.2]
      intro b hb
      have := h1 b hb
      have h3 := (hc.congr_right (c := b.1) h0)
      have h4 := hc.swap a.1 b.1
      have : cmp b.1 k ≠ 0 := fun hx => by have := h3.2.2 hx; omega
      simpa using this
    · simp [h0, ih h2]

theorem insertL_eq_map (hc : LawfulCmp cmp) {A : List (K × V)} (h : Sorted cmp A) (k : K) (v : V)
    (hk : ∃ a ∈ A, cmp a.1 k = 0) :
    insertL cmp k v A = A.map fun p => if cmp p.1 k = 0 then (p.1, v) else p := by
  induction A with
  | nil => simp at hk
  | cons a A ih =>
    obtain ⟨h1, h2⟩ := List.pairwise_cons.1 h
    simp only [insertL, List.map_cons]
    by_cases h0 : cmp a.1 k = 0
    · simp only [h0, if_true]
      congr 1
      have : ∀ b ∈ A, cmp b.1 k ≠ 0 := by
        intro b hb hx
        have h3 := (hc.congr_right (c := b.1) h0)
        have h4 := hc.swap a.1 b.1
        have := h1 b hb
        have := h3.2.2 hx; omega
      symm
      conv => rhs; rw [← List.map_id A]
      apply List.map_congr_left
      intro b hb; simp [this b hb]
    · simp only [h0, if_false]
      have hk' : ∃ b ∈ A, cmp b.1 k = 0 := by
        obtain ⟨b, hb, hx⟩ := hk
        simp at hb; rcases hb with rfl | hb
        · exact absurd hx h0
        · exact ⟨b, hb, hx⟩
      obtain ⟨b, hb, hx⟩ := hk'
      have : cmp a.1 k < 0 := hc.lt_of_lt_of_le (h1 b hb) (by omega)
      simp only [this, if_true]
      rw [ih h2 ⟨b, hb, hx⟩]

theorem length_enumerate (t : RTree K V) : (enumerate t).length = t.size := by
  induction t with
  | nil => rfl
  | node d l r ihl ihr => simp [enumerate, ihl, ihr]; omega

/-! ## Paths -/

theorem paths_ne_nil {D : Type} (t : BTree D) : paths t ≠ [] := by
  cases t with
  | nil => simp [paths]
  | node d l r =>
    have := paths_ne_nil l
    simp [paths, this]

theorem RBal.paths {t : RTree K V} {n : Nat} (h : RBal t n) :
    (∀ p ∈ paths t, p.countP (fun d => !d.red) = n) ∧
    (∀ p ∈ Verif.paths t, ∀ d ∈ p.head?, d.red = isRed t) ∧
    (∀ p ∈ Verif.paths t, ∀ i a b, p[i]? = some a → p[i + 1]? = some b → a.red = true → b.red = false) := by
  induction t generalizing n with
  | nil => cases h; simp [Verif.paths]
  | node d l r ihl ihr =>
    have key : ∀ m, RBal l m → RBal r m → (n = if d.red = true then m else m + 1) →
        (d.red = true → isRed l = false ∧ isRed r = false) →
      (∀ p ∈ Verif.paths (.node d l r), p.countP (fun d => !d.red) = n) ∧
      (∀ p ∈ Verif.paths (.node d l r), ∀ d' ∈ p.head?, d'.red = isRed (.node d l r)) ∧
      (∀ p ∈ Verif.paths (.node d l r), ∀ i a b, p[i]? = some a → p[i + 1]? = some b → a.red = true → b.red = false) := by
      intro m hl hr hn hk
      obtain ⟨l1, l2, l3⟩ := ihl hl
      obtain ⟨r1, r2, r3⟩ := ihr hr
      have hmem : ∀ p ∈ Verif.paths (.node d l r), ∃ q, p = d :: q ∧ q.countP (fun d => !d.red) = m ∧
          (∀ d' ∈ q.head?, d.red = true → d'.red = false) ∧
          (∀ i a b, q[i]? = some a → q[i + 1]? = some b → a.red = true → b.red = false) := by
        intro p hp
        simp only [Verif.paths, List.mem_map, List.mem_append] at hp
        obtain ⟨q, hq, rfl⟩ := hp
        rcases hq with hq | hq
        · exact ⟨q, rfl, l1 q hq, fun d' hd' hx => by rw [l2 q hq d' hd']; exact (hk hx).1, l3 q hq⟩
        · exact ⟨q, rfl, r1 q hq, fun d' hd' hx => by rw [r2 q hq d' hd']; exact (hk hx).2, r3 q hq⟩
      refine ⟨?_, ?_, ?_⟩
      · intro p hp
        obtain ⟨q, rfl, hq, _, _⟩ := hmem p hp
        rw [List.countP_cons, hq, hn]
        cases d.red <;> simp
      · intro p hp d' hd'
        obtain ⟨q, rfl, _⟩ := hmem p hp
        simp at hd'; subst hd'; rfl
      · intro p hp i a b ha hb hx
        obtain ⟨q, rfl, _, hq1, hq2⟩ := hmem p hp
        cases i with
        | zero =>
          simp at ha hb; subst ha
          exact hq1 b (by cases q <;> simp_all) hx
        | succ i => exact hq2 i a b (by simpa using ha) (by simpa using hb) hx
    cases hd : d.red
    · obtain ⟨m, rfl, hl, hr⟩ := (RBal_black hd).1 h
      exact key m hl hr (by simp [hd]) (by simp [hd])
    · have hb := (RBal_red hd).1 h
      exact key n hb.1 hb.2.1 (by simp [hd]) (fun _ => ⟨hb.2.2.1, hb.2.2.2⟩)

theorem Balanced.isRedBlack {t : RTree K V} (h : Balanced t) : IsRedBlack RD.red t := by
  obtain ⟨hr, n, hn⟩ := h
  obtain ⟨h1, h2, h3⟩ := hn.paths
  exact ⟨fun p hp d hd => by rw [h2 p hp d hd, hr], h3, fun p hp q hq => by rw [h1 p hp, h1 q hq]⟩

end Verif.RB
