import Verif.Dot.Model
import Verif.Spec.Levels

/-! # The queue of `Dot` -/

namespace Verif.Dot
open Verif.Levels
variable {D : Type}

theorem subAt_snoc (t : BTree D) (p : Pos) (b : Bool) : subAt t (p ++ [b]) = (subAt t p).child b := by
  induction p generalizing t with
  | nil => cases t <;> cases b <;> simp [subAt]
  | cons c p ih => cases t <;> simp [subAt, ih]

theorem leftOf_snoc {p q : Pos} (h : LeftOf p q) (b c : Bool) : LeftOf (p ++ [b]) (q ++ [c]) := by
  induction p generalizing q with
  | nil => simp [LeftOf] at h
  | cons x p ih =>
    cases q with
    | nil => simp [LeftOf] at h
    | cons y q =>
      simp only [LeftOf, List.cons_append] at h ⊢
      rcases h with h | ⟨h1, h2⟩
      · exact .inl h
      · exact .inr ⟨h1, ih h2⟩

theorem leftOf_kids (p : Pos) : LeftOf (p ++ [false]) (p ++ [true]) := by
  induction p with
  | nil => simp [LeftOf]
  | cons x p ih => simp [LeftOf, ih]

theorem leftOf_irrefl (p : Pos) : ¬ LeftOf p p := by
  induction p with
  | nil => simp [LeftOf]
  | cons x p ih => cases x <;> simp [LeftOf, ih]

theorem before_irrefl (p : Pos) : ¬ Before p p := by
  simp [Before, leftOf_irrefl]

theorem before_snoc {p q : Pos} (h : Before p q) (b c : Bool) : Before (p ++ [b]) (q ++ [c]) := by
  rcases h with h | ⟨h1, h2⟩
  · exact .inl (by simpa using h)
  · exact .inr ⟨by simpa using h1, leftOf_snoc h2 b c⟩

/-- The lines for position `p`, numbers being places in `slots`. -/
def linesAt (t : BTree D) (slots : List Pos) (p : Pos) : List (Line D) :=
  .node (slots.idxOf p) (dataAt t p) ::
    if (subAt t (p ++ [false])).isNil && (subAt t (p ++ [true])).isNil then []
    else [.edge (slots.idxOf p) (slots.idxOf (p ++ [false])) (slots.idxOf (p ++ [true]))]

/-- Progress of the loop: `don` has been written, `q` waits. -/
structure Inv (t : BTree D) (don q : List Pos) : Prop where
  sorted : (don ++ q).Pairwise Before
  root : [] ∈ don ++ q
  orig : ∀ p ∈ don ++ q, p = [] ∨ ∃ y ∈ don, ∃ b, p = y ++ [b] ∧ HasKids t y
  clos : ∀ y ∈ don, HasKids t y → ∀ b, y ++ [b] ∈ don ++ q

/-- Subtrees waiting. -/
def work (t : BTree D) (q : List Pos) : Nat := (q.map fun p => 2 * (subAt t p).size + 1).sum

theorem hasKids_iff (t : BTree D) (p : Pos) :
    HasKids t p ↔ ((subAt t (p ++ [false])).isNil && (subAt t (p ++ [true])).isNil) = false := by
  simp only [HasKids]
  cases subAt t (p ++ [false]) <;> cases subAt t (p ++ [true]) <;> simp

theorem Inv.skip {t : BTree D} {don q : List Pos} {x : Pos} (h : Inv t don (x :: q)) (hk : ¬ HasKids t x) : Inv t (don ++ [x]) q where
  sorted := by simpa using h.sorted
  root := by simpa using h.root
  orig p hp := by
    rcases h.orig p (by simpa using hp) with h | ⟨y, hy, b, e⟩
    · exact .inl h
    · exact .inr ⟨y, by simp [hy], b, e⟩
  clos y hy hky b := by
    rcases List.mem_append.1 hy with hy | hy
    · simpa using h.clos y hy hky b
    · simp at hy; subst hy; exact absurd hky hk

theorem Inv.kids {t : BTree D} {don q : List Pos} {x : Pos} (h : Inv t don (x :: q)) (hk : HasKids t x) :
    Inv t (don ++ [x]) (q ++ [x ++ [false]] ++ [x ++ [true]]) where
  sorted := by
    have hlt : ∀ p ∈ don ++ x :: q, ∀ b, Before p (x ++ [b]) := by
      intro p hp b
      rcases h.orig p hp with rfl | ⟨y, hy, c, rfl, _⟩
      · exact .inl (by simp)
      · have hs := h.sorted
        rw [List.pairwise_append] at hs
        exact before_snoc (hs.2.2 y hy x (by simp)) _ _
    have e : don ++ [x] ++ (q ++ [x ++ [false]] ++ [x ++ [true]]) = (don ++ x :: q) ++ [x ++ [false], x ++ [true]] := by simp
    rw [e, List.pairwise_append]
    refine ⟨h.sorted, by simp only [List.pairwise_cons, List.mem_singleton, forall_eq]; exact ⟨Or.inr ⟨by simp, leftOf_kids x⟩, by simp⟩, ?_⟩
    intro p hp r hr
    simp only [List.mem_cons, List.not_mem_nil, or_false] at hr
    rcases hr with rfl | rfl
    · exact hlt p hp _
    · exact hlt p hp _
  root := by have := h.root; simp at this ⊢; grind
  orig p hp := by
    have : p ∈ don ++ x :: q ∨ ∃ b, p = x ++ [b] := by
      simp at hp ⊢; grind
    rcases this with hp | ⟨b, rfl⟩
    · rcases h.orig p hp with h | ⟨y, hy, b, e⟩
      · exact .inl h
      · exact .inr ⟨y, by simp [hy], b, e⟩
    · exact .inr ⟨x, by simp, b, rfl, hk⟩
  clos y hy hky b := by
    rcases List.mem_append.1 hy with hy | hy
    · have := h.clos y hy hky b
      simp at this ⊢; grind
    · simp at hy; subst hy
      cases b <;> simp

theorem idxOf_mid {don q : List Pos} {x : Pos} (h : (don ++ x :: q).Pairwise Before) : (don ++ x :: q).idxOf x = don.length := by
  have : x ∉ don := by
    intro hx
    rw [List.pairwise_append] at h
    exact before_irrefl x (h.2.2 x hx x (by simp))
  rw [List.idxOf_append, if_neg this]; simp

theorem dotLoop_spec (t : BTree D) (fuel : Nat) : ∀ don q, Inv t don q → work t q < fuel →
    ∃ rest, Inv t (don ++ q ++ rest) [] ∧
      dotLoop fuel don.length (q.map (subAt t)) = some ((q ++ rest).flatMap (linesAt t (don ++ q ++ rest))) := by
  induction fuel with
  | zero => intro _ _ _ h; omega
  | succ fuel ih =>
    intro don q hI hw
    cases q with
    | nil => exact ⟨[], by simpa using hI, by simp [dotLoop]⟩
    | cons x q =>
      have hdl : don.length + 1 = (don ++ [x]).length := by simp
      have hsub := fun b => subAt_snoc t x b
      by_cases hk : HasKids t x
      · -- node with children
        have hI' := hI.kids hk
        cases hx : subAt t x with
        | nil =>
          exfalso
          have h := (hasKids_iff t x).1 hk
          simp [hsub, hx] at h
        | node d l r =>
          simp only [hx] at hsub
          have h0 : subAt t (x ++ [false]) = l := hsub false
          have h1 : subAt t (x ++ [true]) = r := hsub true
          have hlr : (!l.isNil || !r.isNil) = true := by
            have h := (hasKids_iff t x).1 hk
            rw [h0, h1] at h
            cases l <;> cases r <;> simp_all
          obtain ⟨rest, hE, hout⟩ := ih (don ++ [x]) (q ++ [x ++ [false]] ++ [x ++ [true]]) hI' (by
            simp only [work, List.map_cons, List.sum_cons, hx, BTree.size_node] at hw
            simp only [work, List.map_append, List.map_cons, List.map_nil, List.sum_append, List.sum_cons, List.sum_nil, h0, h1]
            omega)
          refine ⟨[x ++ [false], x ++ [true]] ++ rest, ?_, ?_⟩
          · have e : don ++ x :: q ++ ([x ++ [false], x ++ [true]] ++ rest) = don ++ [x] ++ (q ++ [x ++ [false]] ++ [x ++ [true]]) ++ rest := by simp
            rw [e]; exact hE
          · simp only [List.map_cons, hx, dotLoop, if_pos hlr]
            have hmap : List.map (subAt t) q ++ [l] ++ [r] = List.map (subAt t) (q ++ [x ++ [false]] ++ [x ++ [true]]) := by simp [h0, h1]
            rw [hmap, hdl, hout]
            have e : don ++ [x] ++ (q ++ [x ++ [false]] ++ [x ++ [true]]) ++ rest = don ++ x :: q ++ ([x ++ [false], x ++ [true]] ++ rest) := by simp
            have hs := hE.sorted
            rw [List.append_nil, e] at hs
            rw [e]
            have ix : (don ++ x :: q ++ ([x ++ [false], x ++ [true]] ++ rest)).idxOf x = don.length := by
              have : don ++ x :: q ++ ([x ++ [false], x ++ [true]] ++ rest) = don ++ x :: (q ++ ([x ++ [false], x ++ [true]] ++ rest)) := by simp
              rw [this] at hs ⊢; exact idxOf_mid hs
            have i0 : (don ++ x :: q ++ ([x ++ [false], x ++ [true]] ++ rest)).idxOf (x ++ [false]) = don.length + (q.length + 1) := by
              have : don ++ x :: q ++ ([x ++ [false], x ++ [true]] ++ rest) = (don ++ x :: q) ++ (x ++ [false]) :: ((x ++ [true]) :: rest) := by simp
              rw [this] at hs ⊢; rw [idxOf_mid hs]; simp
            have i1 : (don ++ x :: q ++ ([x ++ [false], x ++ [true]] ++ rest)).idxOf (x ++ [true]) = don.length + (q.length + 1) + 1 := by
              have : don ++ x :: q ++ ([x ++ [false], x ++ [true]] ++ rest) = (don ++ x :: q ++ [x ++ [false]]) ++ (x ++ [true]) :: rest := by simp
              rw [this] at hs ⊢; rw [idxOf_mid hs]; simp; omega
            have hn : ((subAt t (x ++ [false])).isNil && (subAt t (x ++ [true])).isNil) = false := (hasKids_iff t x).1 hk
            have hl : linesAt t (don ++ x :: q ++ ([x ++ [false], x ++ [true]] ++ rest)) x =
                [.node don.length (some d), .edge don.length (don.length + (q.length + 1)) (don.length + (q.length + 1) + 1)] := by
              simp only [linesAt, ix, i0, i1, hn, dataAt, hx]; simp
            have e2 : x :: q ++ ([x ++ [false], x ++ [true]] ++ rest) = x :: (q ++ [x ++ [false]] ++ [x ++ [true]] ++ rest) := by simp
            rw [e2, List.flatMap_cons, hl]
            simp
      · have hI' := hI.skip hk
        have hn : ((subAt t (x ++ [false])).isNil && (subAt t (x ++ [true])).isNil) = true := by
          have := fun h => hk ((hasKids_iff t x).2 h); simpa using this
        obtain ⟨rest, hE, hout⟩ := ih (don ++ [x]) q hI' (by
          simp only [work, List.map_cons, List.sum_cons] at hw ⊢; omega)
        have e : don ++ [x] ++ q ++ rest = don ++ x :: q ++ rest := by simp
        have hs := hE.sorted
        rw [List.append_nil, e] at hs
        have ix : (don ++ x :: q ++ rest).idxOf x = don.length := by
          have : don ++ x :: q ++ rest = don ++ x :: (q ++ rest) := by simp
          rw [this] at hs ⊢; exact idxOf_mid hs
        refine ⟨rest, by rw [← e]; exact hE, ?_⟩
        rw [e] at hout
        have hl : linesAt t (don ++ x :: q ++ rest) x = [.node don.length (dataAt t x)] := by
          simp only [linesAt, ix, hn]; simp
        simp only [List.cons_append, List.flatMap_cons, List.map_cons, dotLoop]
        rw [show don ++ (x :: q) ++ rest = don ++ x :: (q ++ rest) by simp] at hl hout
        cases hx : subAt t x with
        | nil =>
          simp only [hdl, hout]
          simp [hl, dataAt, hx]
        | node d l r =>
          have : (!l.isNil || !r.isNil) = false := by
            rw [hsub, hsub, hx] at hn
            simp at hn
            simp [hn.1, hn.2]
          simp only [this, hdl, hout]
          simp [hl, dataAt, hx]

theorem dot_spec (t : BTree D) : ∃ slots, Inv t slots [] ∧ dot t = some (slots.flatMap (linesAt t slots)) := by
  obtain ⟨rest, h1, h2⟩ := dotLoop_spec t (2 * t.size + 2) [] [[]]
    ⟨by simp, by simp, by simp, by simp⟩ (by simp [work, subAt])
  exact ⟨[[]] ++ rest, by simpa using h1, by simpa [dot, subAt] using h2⟩

theorem Inv.drawn {t : BTree D} {slots : List Pos} (h : Inv t slots []) (p : Pos) : p ∈ slots ↔ Drawn t p := by
  constructor
  · intro hp
    rcases h.orig p (by simpa using hp) with h | ⟨y, _, b, e, hk⟩
    · exact .inl h
    · exact .inr ⟨y, b, e, hk⟩
  · have hpre : ∀ p : Pos, HasKids t p → p ∈ slots := by
      intro p
      induction hn : p.length generalizing p with
      | zero =>
        intro _
        obtain rfl := List.length_eq_zero_iff.1 hn
        simpa using h.root
      | succ n ih =>
        intro hk
        rcases List.eq_nil_or_concat p with rfl | ⟨q, b, rfl⟩
        · simp at hn
        simp only [List.concat_eq_append] at *
        have hq : HasKids t q := by
          rw [hasKids_iff] at hk ⊢
          simp only [subAt_snoc] at hk ⊢
          cases hx : subAt t q with
          | nil => simp [hx] at hk
          | node d l r => cases b <;> cases l <;> cases r <;> simp_all
        simpa using h.clos q (ih q (by simpa using hn) hq) hq b
    rintro (rfl | ⟨q, b, rfl, hk⟩)
    · simpa using h.root
    · simpa using h.clos q (hpre q hk) hk b

end Verif.Dot
