import Verif.RB.Model
import Verif.Spec.OrdMap

/-! # In-order contents of the red-black operations (no colours involved) -/

namespace Verif.LawfulCmp
variable {K : Type} {cmp : K → K → Int} (h : LawfulCmp cmp)
include h

theorem refl (a : K) : cmp a a = 0 := by
  have h1 := h.swap a a
  omega

theorem eq_comm {a b : K} : cmp a b = 0 ↔ cmp b a = 0 := by
  have h1 := h.swap a b
  have h2 := h.swap b a
  omega

theorem lt_of_le_of_lt {a b c : K} (h1 : cmp a b ≤ 0) (h2 : cmp b c < 0) : cmp a c < 0 := by
  have h3 := h.swap b c
  have h5 := h.swap a c
  have h6 := h.trans a b c h1 (by omega)
  by_cases h7 : cmp a c = 0
  · have h8 := h.trans c a b (by have := h.eq_comm.1 h7; omega) h1
    omega
  · omega

theorem lt_of_lt_of_le {a b c : K} (h1 : cmp a b < 0) (h2 : cmp b c ≤ 0) : cmp a c < 0 := by
  have h3 := h.swap a b
  have h5 := h.swap a c
  have h6 := h.trans a b c (by omega) h2
  by_cases h7 : cmp a c = 0
  · have h8 := h.trans b c a h2 (by have := h.eq_comm.1 h7; omega)
    omega
  · omega

theorem congr_left {a b c : K} (h1 : cmp a b = 0) : (cmp a c < 0 ↔ cmp b c < 0) ∧ (cmp a c = 0 ↔ cmp b c = 0) := by
  have h2 := h.eq_comm.1 h1
  have a1 : cmp a c ≤ 0 → cmp b c ≤ 0 := h.trans b a c (by omega)
  have a2 : cmp b c ≤ 0 → cmp a c ≤ 0 := h.trans a b c (by omega)
  have a3 : cmp a c < 0 → cmp b c < 0 := h.lt_of_le_of_lt (a := b) (b := a) (by omega)
  have a4 : cmp b c < 0 → cmp a c < 0 := h.lt_of_le_of_lt (a := a) (b := b) (by omega)
  omega

theorem congr_right {a b c : K} (h1 : cmp a b = 0) : (cmp c a < 0 ↔ cmp c b < 0) ∧ (cmp c a = 0 ↔ cmp c b = 0) := by
  have h2 := h.eq_comm.1 h1
  have a3 : cmp c a < 0 → cmp c b < 0 := fun x => h.lt_of_lt_of_le x (by omega)
  have a4 : cmp c b < 0 → cmp c a < 0 := fun x => h.lt_of_lt_of_le x (by omega)
  have b0 := h.congr_left (c := c) h1
  have c1 := h.eq_comm (a := a) (b := c)
  have c2 := h.eq_comm (a := b) (b := c)
  refine ⟨⟨a3, a4⟩, ?_⟩
  rw [← c1, ← c2]; exact b0.2

end Verif.LawfulCmp

namespace Verif.RB
variable {K V : Type} {cmp : K → K → Int}

/-! ## Sorted association lists -/

/-- Strictly increasing keys. -/
def Sorted (cmp : K → K → Int) (xs : List (K × V)) : Prop := xs.Pairwise fun a b => cmp a.1 b.1 < 0

/-- Insertion into a sorted list; an equal key keeps its spelling. -/
def insertL (cmp : K → K → Int) (k : K) (v : V) : List (K × V) → List (K × V)
  | [] => [(k, v)]
  | (k', v') :: xs =>
    if cmp k' k = 0 then (k', v) :: xs
    else if cmp k' k < 0 then (k', v') :: insertL cmp k v xs
    else (k, v) :: (k', v') :: xs

/-- Removal from a sorted list. -/
def eraseL (cmp : K → K → Int) (k : K) : List (K × V) → List (K × V)
  | [] => []
  | (k', v') :: xs => if cmp k' k = 0 then xs else (k', v') :: eraseL cmp k xs

/-- Lookup in a list. -/
def lookupL (cmp : K → K → Int) (k : K) : List (K × V) → Option (K × V)
  | [] => none
  | (k', v') :: xs => if cmp k' k = 0 then some (k', v') else lookupL cmp k xs

theorem insertL_mid {k : K} {v : V} {A B : List (K × V)} {k0 : K} {v0 : V} (hA : ∀ a ∈ A, cmp a.1 k < 0)
    (h0 : cmp k0 k = 0) : insertL cmp k v (A ++ (k0, v0) :: B) = A ++ (k0, v) :: B := by
  induction A with
  | nil => simp [insertL, h0]
  | cons a A ih =>
    have h1 := hA a (by simp)
    have : cmp a.1 k ≠ 0 := by omega
    simp only [List.cons_append, insertL, this, if_false, h1, if_true]
    rw [ih (fun x hx => hA x (by simp [hx]))]

theorem insertL_gap {k : K} {v : V} {A B : List (K × V)} (hA : ∀ a ∈ A, cmp a.1 k < 0)
    (hB : ∀ b ∈ B, 0 < cmp b.1 k) : insertL cmp k v (A ++ B) = A ++ (k, v) :: B := by
  induction A with
  | nil =>
    cases B with
    | nil => rfl
    | cons b B =>
      have := hB b (by simp)
      simp only [List.nil_append, insertL]
      rw [if_neg (by omega), if_neg (by omega)]
  | cons a A ih =>
    have h1 := hA a (by simp)
    have : cmp a.1 k ≠ 0 := by omega
    simp only [List.cons_append, insertL, this, if_false, h1, if_true]
    rw [ih (fun x hx => hA x (by simp [hx]))]

theorem eraseL_mid {k : K} {A B : List (K × V)} {k0 : K} {v0 : V} (hA : ∀ a ∈ A, cmp a.1 k < 0)
    (h0 : cmp k0 k = 0) : eraseL cmp k (A ++ (k0, v0) :: B) = A ++ B := by
  induction A with
  | nil => simp [eraseL, h0]
  | cons a A ih =>
    have h1 := hA a (by simp)
    have : cmp a.1 k ≠ 0 := by omega
    simp only [List.cons_append, eraseL, this, if_false]
    rw [ih (fun x hx => hA x (by simp [hx]))]

theorem eraseL_none {k : K} {A : List (K × V)} (hA : ∀ a ∈ A, cmp a.1 k ≠ 0) : eraseL cmp k A = A := by
  induction A with
  | nil => rfl
  | cons a A ih =>
    simp only [eraseL, hA a (by simp), if_false]
    rw [ih (fun x hx => hA x (by simp [hx]))]

theorem lookupL_append {k : K} {A B : List (K × V)} :
    lookupL cmp k (A ++ B) = (lookupL cmp k A).or (lookupL cmp k B) := by
  induction A with
  | nil => rfl
  | cons a A ih =>
    simp only [List.cons_append, lookupL]
    split
    · rfl
    · exact ih

theorem lookupL_none {k : K} {A : List (K × V)} (hA : ∀ a ∈ A, cmp a.1 k ≠ 0) : lookupL cmp k A = none := by
  induction A with
  | nil => rfl
  | cons a A ih =>
    simp only [lookupL, hA a (by simp), if_false]
    rw [ih (fun x hx => hA x (by simp [hx]))]

theorem lookupL_some_mem {k : K} {A : List (K × V)} {x : K × V} (h : lookupL cmp k A = some x) :
    x ∈ A ∧ cmp x.1 k = 0 := by
  induction A with
  | nil => simp [lookupL] at h
  | cons a A ih =>
    simp only [lookupL] at h
    split at h
    · rename_i h0; cases h; exact ⟨by simp, h0⟩
    · exact ⟨by simp [(ih h).1], (ih h).2⟩

theorem Sorted.left_lt (hc : LawfulCmp cmp) {A B : List (K × V)} {d : K × V} {k : K} (h : Sorted cmp (A ++ d :: B))
    (hd : cmp d.1 k ≤ 0) : ∀ a ∈ A, cmp a.1 k < 0 := by
  intro a ha
  have := (List.pairwise_append.1 h).2.2 a ha d (by simp)
  exact hc.lt_of_lt_of_le this hd

theorem Sorted.right_gt (hc : LawfulCmp cmp) {A B : List (K × V)} {d : K × V} {k : K} (h : Sorted cmp (A ++ d :: B))
    (hd : 0 ≤ cmp d.1 k) : ∀ b ∈ B, 0 < cmp b.1 k := by
  intro b hb
  have h1 := (List.pairwise_append.1 h).2.1
  have := (List.pairwise_cons.1 h1).1 b hb
  rw [← hc.swap]
  exact hc.lt_of_le_of_lt (a := k) (b := d.1) (by have := hc.swap k d.1; have := hc.swap d.1 k; omega) this

theorem Sorted.lookupL_iff (hc : LawfulCmp cmp) {A : List (K × V)} (h : Sorted cmp A) (k : K) (x : K × V) :
    lookupL cmp k A = some x ↔ x ∈ A ∧ cmp x.1 k = 0 := by
  constructor
  · exact lookupL_some_mem
  · rintro ⟨hx, h0⟩
    obtain ⟨B, C, rfl⟩ := List.append_of_mem hx
    have := h.left_lt hc (k := k) (by omega)
    rw [lookupL_append, lookupL_none (fun a ha => by have := this a ha; omega)]
    simp [lookupL, h0]

theorem Sorted.insertL (hc : LawfulCmp cmp) {A : List (K × V)} (h : Sorted cmp A) (k : K) (v : V) :
    Sorted cmp (insertL cmp k v A) ∧
    ∀ q, lookupL cmp q (RB.insertL cmp k v A) =
      if cmp k q = 0 then ((lookupL cmp q A).map Prod.fst).or (some k) |>.map (·, v) else lookupL cmp q A := by
  -- split the list at the position of the key
  have split : (∃ B k0 v0 C, A = B ++ (k0, v0) :: C ∧ cmp k0 k = 0) ∨
      (∃ B C, A = B ++ C ∧ (∀ a ∈ B, cmp a.1 k < 0) ∧ ∀ b ∈ C, 0 < cmp b.1 k) := by
    clear v
    induction A with
    | nil => right; exact ⟨[], [], by simp⟩
    | cons a A ih =>
      rcases ih (List.Pairwise.of_cons h) with ⟨B, k0, v0, C, rfl, h0⟩ | ⟨B, C, rfl, hB, hC⟩
      · left; exact ⟨a :: B, k0, v0, C, rfl, h0⟩
      · by_cases h1 : cmp a.1 k < 0
        · right; refine ⟨a :: B, C, rfl, ?_, hC⟩
          intro x hx; simp at hx; rcases hx with rfl | hx
          · exact h1
          · exact hB x hx
        · by_cases h2 : cmp a.1 k = 0
          · left; exact ⟨[], a.1, a.2, B ++ C, rfl, h2⟩
          · right; refine ⟨[], a :: (B ++ C), rfl, by simp, ?_⟩
            intro x hx; simp only [List.mem_cons] at hx; rcases hx with rfl | hx
            · omega
            · exact Sorted.right_gt hc (A := []) (k := k) h (by omega) x hx
  rcases split with ⟨B, k0, v0, C, rfl, h0⟩ | ⟨B, C, rfl, hB, hC⟩
  · have hlt := h.left_lt hc (k := k) (by simp; omega)
    have hgt := h.right_gt hc (k := k) (by simp; omega)
    rw [insertL_mid hlt h0]
    constructor
    · unfold Sorted at h ⊢
      rw [List.pairwise_append, List.pairwise_cons] at h ⊢
      refine ⟨h.1, ⟨h.2.1.1, h.2.1.2⟩, ?_⟩
      intro a ha b hb
      simp only [List.mem_cons] at hb
      rcases hb with rfl | hb
      · exact h.2.2 a ha (k0, v0) (by simp)
      · exact h.2.2 a ha b (by simp [hb])
    · intro q
      rw [lookupL_append, lookupL_append]
      by_cases hq : cmp k q = 0
      · have h0q : cmp k0 q = 0 := (hc.congr_left h0).2.2 hq
        have hn : lookupL cmp q B = none := lookupL_none (fun a ha => by
          have := (hc.congr_right (c := a.1) hq).1.1 (hlt a ha); omega)
        simp [hq, hn, lookupL, h0q]
      · have h0q : cmp k0 q ≠ 0 := fun hx => hq ((hc.congr_left h0).2.1 hx)
        simp [hq, lookupL, h0q]
  · rw [insertL_gap hB hC]
    constructor
    · unfold Sorted at h ⊢
      rw [List.pairwise_append] at h ⊢
      refine ⟨h.1, List.pairwise_cons.2 ⟨fun b hb => ?_, h.2.1⟩, ?_⟩
      · exact (hc.swap _ _).2 (hC b hb)
      · intro a ha b hb
        simp only [List.mem_cons] at hb
        rcases hb with rfl | hb
        · exact hB a ha
        · exact h.2.2 a ha b hb
    · intro q
      rw [lookupL_append, lookupL_append]
      by_cases hq : cmp k q = 0
      · have hn : lookupL cmp q B = none := lookupL_none (fun a ha => by
          have := (hc.congr_right (c := a.1) hq).1.1 (hB a ha); omega)
        have hn2 : lookupL cmp q C = none := lookupL_none (fun a ha => by
          have h1 := hC a ha
          have h2 := (hc.congr_right (c := a.1) hq).2
          omega)
        simp [hq, hn, hn2, lookupL]
      · simp [hq, lookupL]

theorem Sorted.eraseL (hc : LawfulCmp cmp) {A : List (K × V)} (h : Sorted cmp A) (k : K) :
    Sorted cmp (eraseL cmp k A) ∧
    ∀ q, lookupL cmp q (RB.eraseL cmp k A) = if cmp k q = 0 then none else lookupL cmp q A := by
  by_cases hex : ∃ a ∈ A, cmp a.1 k = 0
  · obtain ⟨a, ha, h0⟩ := hex
    obtain ⟨B, C, rfl⟩ := List.append_of_mem ha
    have hlt := h.left_lt hc (k := k) (by omega)
    have hgt := h.right_gt hc (k := k) (by omega)
    rw [show a = (a.1, a.2) from rfl, eraseL_mid hlt h0]
    constructor
    · exact List.Pairwise.sublist (by simp) h
    · intro q
      rw [lookupL_append, lookupL_append]
      by_cases hq : cmp k q = 0
      · have hn : lookupL cmp q B = none := lookupL_none (fun a ha => by
          have := (hc.congr_right (c := a.1) hq).1.1 (hlt a ha); omega)
        have hn2 : lookupL cmp q C = none := lookupL_none (fun a ha => by
          have h1 := hgt a ha
          have h2 := (hc.congr_right (c := a.1) hq).2
          omega)
        simp [hq, hn, hn2]
      · have h0q : cmp a.1 q ≠ 0 := fun hx => hq ((hc.congr_left h0).2.1 hx)
        simp [hq, lookupL, h0q]
  · have hne : ∀ a ∈ A, cmp a.1 k ≠ 0 := fun a ha h0 => hex ⟨a, ha, h0⟩
    rw [eraseL_none hne]
    refine ⟨h, fun q => ?_⟩
    split
    · rename_i hq
      exact lookupL_none (fun a ha h0 => hne a ha ((hc.congr_right hq).2.2 h0))
    · rfl

/-! ## Contexts -/

/-- The pairs left of the hole. -/
def leftL : List (Frame K V) → List (K × V)
  | [] => []
  | f :: fs => leftL fs ++ (if f.dir then enumerate f.sib ++ [(f.d.key, f.d.value)] else [])

/-- The pairs right of the hole. -/
def rightL : List (Frame K V) → List (K × V)
  | [] => []
  | f :: fs => (if f.dir then [] else (f.d.key, f.d.value) :: enumerate f.sib) ++ rightL fs

/-- The whole list with `t` in the hole. -/
def whole (ctx : List (Frame K V)) (t : RTree K V) : List (K × V) := leftL ctx ++ enumerate t ++ rightL ctx

theorem enumerate_mk2 (d : RD K V) (b : Bool) (x y : RTree K V) :
    enumerate (.mk2 d b x y) = if b then enumerate y ++ (d.key, d.value) :: enumerate x
      else enumerate x ++ (d.key, d.value) :: enumerate y := by
  cases b <;> simp [enumerate]

@[simp] theorem col_key (d : RD K V) (c : Bool) : (d.col c).key = d.key := rfl
@[simp] theorem col_value (d : RD K V) (c : Bool) : (d.col c).value = d.value := rfl
@[simp] theorem col_red (d : RD K V) (c : Bool) : (d.col c).red = c := rfl

@[simp] theorem enumerate_setRed (c : Bool) (t : RTree K V) : enumerate (setRed c t) = enumerate t := by
  cases t <;> rfl

theorem enumerate_plug (t : RTree K V) (ctx : List (Frame K V)) : enumerate (plug t ctx) = whole ctx t := by
  induction ctx generalizing t with
  | nil => simp [plug, whole, leftL, rightL]
  | cons f fs ih =>
    unfold plug
    rw [ih]
    unfold whole
    simp only [leftL, rightL]
    rw [enumerate_mk2]
    cases f.dir <;> simp

/-! ## insert -/

/-- The rotation keeps the sequence; it may move pairs from the context to the current subtree. -/
theorem fix_spec {ctx ctx' : List (Frame K V)} {n n' : RTree K V} (h : fix ctx n = some (ctx', n')) :
    ∃ X Y, leftL ctx = leftL ctx' ++ X ∧ rightL ctx = Y ++ rightL ctx' ∧ enumerate n' = X ++ enumerate n ++ Y := by
  unfold fix at h
  split at h
  · split at h
    · rename_i P G rest nd nl nr _
      split at h
      · rename_i hdir
        simp only [Option.some.injEq, Prod.mk.injEq] at h
        obtain ⟨rfl, rfl⟩ := h
        refine ⟨[], [], ?_, ?_, by simp⟩
        · simp only [leftL, hdir, enumerate_mk2]
          cases G.dir <;> simp
        · simp only [rightL, hdir, enumerate_mk2]
          cases G.dir <;> simp
      · rename_i hdir
        simp only [Option.some.injEq, Prod.mk.injEq] at h
        obtain ⟨rfl, rfl⟩ := h
        cases hg : G.dir
        · have hp : P.dir = true := by cases hp : P.dir <;> simp_all
          refine ⟨enumerate P.sib ++ [(P.d.key, P.d.value)], (G.d.key, G.d.value) :: enumerate G.sib, ?_, ?_, ?_⟩ <;>
            simp [leftL, rightL, hp, hg, enumerate]
        · have hp : P.dir = false := by cases hp : P.dir <;> simp_all
          refine ⟨enumerate G.sib ++ [(G.d.key, G.d.value)], (P.d.key, P.d.value) :: enumerate P.sib, ?_, ?_, ?_⟩ <;>
            simp [leftL, rightL, hp, hg, enumerate]
    · simp at h
  · simp only [Option.some.injEq, Prod.mk.injEq] at h
    obtain ⟨rfl, rfl⟩ := h
    exact ⟨[], [], by simp⟩

theorem insLoop_spec [Inhabited V] (hc : LawfulCmp cmp) {key : K} {value : V} {fuel : Nat} {ctx : List (Frame K V)}
    {foc t : RTree K V} (h : insLoop cmp key value fuel ctx foc = some t) (hs : Sorted cmp (whole ctx foc))
    (hl : ∀ a ∈ leftL ctx, cmp a.1 key < 0) (hr : ∀ a ∈ rightL ctx, 0 < cmp a.1 key) :
    enumerate t = insertL cmp key value (whole ctx foc) := by
  induction fuel generalizing ctx foc with
  | zero => simp [insLoop] at h
  | succ fuel ih =>
    unfold insLoop at h
    split at h
    · rename_i ctx' d l r hfix
      obtain ⟨X, Y, h1, h2, h3⟩ := fix_spec hfix
      have hl' : ∀ a ∈ leftL ctx', cmp a.1 key < 0 := fun a ha => hl a (by rw [h1]; simp [ha])
      have hr' : ∀ a ∈ rightL ctx', 0 < cmp a.1 key := fun a ha => hr a (by rw [h2]; simp [ha])
      have hX : ∀ a ∈ X, cmp a.1 key < 0 := fun a ha => hl a (by rw [h1]; simp [ha])
      have hY : ∀ a ∈ Y, 0 < cmp a.1 key := fun a ha => hr a (by rw [h2]; simp [ha])
      have hw : whole ctx' (.node d l r) = whole ctx (visit key foc) := by
        unfold whole; rw [h3, h1, h2]; simp
      cases foc with
      | node fd fl fr =>
        have hv : enumerate (visit key (.node fd fl fr)) = enumerate (.node fd fl fr) := by
          simp only [visit]; split <;> simp [enumerate]
        have hw' : whole ctx' (.node d l r) = whole ctx (.node fd fl fr) := by
          rw [hw]; unfold whole; rw [hv]
        rw [← hw'] at hs ⊢
        have e : whole ctx' (.node d l r) = (leftL ctx' ++ enumerate l) ++ (d.key, d.value) :: (enumerate r ++ rightL ctx') := by
          simp [whole, enumerate]
        simp only at h
        split at h
        · rename_i h0
          simp only [Option.some.injEq] at h
          subst h
          rw [enumerate_plug]
          rw [e] at hs ⊢
          have := hs.left_lt hc (k := key) (by simp; omega)
          rw [insertL_mid this h0]
          simp [whole, enumerate]
        · split at h
          · rename_i h0 hlt
            have e2 : whole ({ d := d, dir := true, sib := l } :: ctx') r = whole ctx' (.node d l r) := by
              simp [whole, leftL, rightL, enumerate]
            rw [← e2] at hs ⊢
            refine ih h hs ?_ hr'
            intro a ha
            rw [e2, e] at hs
            simp only [leftL, if_true, List.mem_append, List.mem_singleton] at ha
            rcases ha with ha | ha | rfl
            · exact hl' a ha
            · exact hs.left_lt hc (k := key) (by simp; omega) a (by simp [ha])
            · exact hlt
          · rename_i h0 hlt
            have e2 : whole ({ d := d, dir := false, sib := r } :: ctx') l = whole ctx' (.node d l r) := by
              simp [whole, leftL, rightL, enumerate]
            rw [← e2] at hs ⊢
            refine ih h hs (by simpa [leftL] using hl') ?_
            intro a ha
            rw [e2, e] at hs
            simp only [rightL, Bool.false_eq_true, if_false, List.cons_append, List.mem_cons, List.mem_append] at ha
            rcases ha with rfl | ha | ha
            · simp only; omega
            · exact hs.right_gt hc (k := key) (by simp; omega) a (by simp [ha])
            · exact hr' a ha
      | nil =>
        have hv : enumerate (visit key (.nil : RTree K V)) = [(key, default)] := by simp [visit, enumerate]
        rw [hv] at h3
        -- where the new node sits inside the rotated subtree
        have hmem : (d.key, d.value) ∈ X ++ [(key, default)] ++ Y := by rw [← h3]; simp [enumerate]
        have hfin : whole ctx .nil = leftL ctx ++ rightL ctx := by simp [whole, enumerate]
        rw [hfin, insertL_gap hl hr, h1, h2]
        -- the focus after the rotation is the new node itself
        have hd : d.key = key ∧ enumerate l = X ∧ enumerate r = Y := by
          unfold fix at hfix
          simp only [visit] at hfix
          split at hfix
          · split at hfix
            · rename_i P G rest nd nl nr heq _
              cases heq
              split at hfix
              · simp only [Option.some.injEq, Prod.mk.injEq] at hfix
                obtain ⟨rfl, h4⟩ := hfix
                cases h4
                simp only [enumerate, List.nil_append] at h3
                refine ⟨rfl, ?_⟩
                have hlen := congrArg List.length h3
                simp only [List.length_append, List.length_cons, List.length_nil] at hlen
                have : X = [] := List.length_eq_zero_iff.1 (by omega)
                have : Y = [] := List.length_eq_zero_iff.1 (by omega)
                subst_vars; simp [enumerate]
              · rename_i hdir
                simp only [Option.some.injEq, Prod.mk.injEq] at hfix
                obtain ⟨rfl, h4⟩ := hfix
                cases hg : G.dir
                · rw [hg] at h4
                  have hp : P.dir = true := by cases hp : P.dir <;> simp_all
                  simp only [BTree.mk2_false, BTree.node.injEq] at h4
                  obtain ⟨rfl, rfl, rfl⟩ := h4
                  simp only [leftL, rightL, hp, hg, if_true, if_false, Bool.false_eq_true, List.append_nil, List.nil_append, List.append_cancel_left_eq, List.append_cancel_right_eq] at h1 h2
                  refine ⟨rfl, ?_, ?_⟩
                  · rw [← h1]; simp [enumerate]
                  · rw [← h2]; simp [enumerate]
                · rw [hg] at h4
                  have hp : P.dir = false := by cases hp : P.dir <;> simp_all
                  simp only [BTree.mk2_true, BTree.node.injEq] at h4
                  obtain ⟨rfl, rfl, rfl⟩ := h4
                  simp only [leftL, rightL, hp, hg, if_true, if_false, Bool.false_eq_true, List.append_nil, List.nil_append, List.append_cancel_left_eq, List.append_cancel_right_eq] at h1 h2
                  refine ⟨rfl, ?_, ?_⟩
                  · rw [← h1]; simp [enumerate]
                  · rw [← h2]; simp [enumerate]
            · simp at hfix
          · simp only [Option.some.injEq, Prod.mk.injEq] at hfix
            obtain ⟨rfl, h4⟩ := hfix
            cases h4
            have : X = [] := by
              have := congrArg List.length h1; simp at this; exact this
            have : Y = [] := by
              have := congrArg List.length h2; simp at this; exact this
            subst_vars; simp [enumerate]
        obtain ⟨hd1, hd2, hd3⟩ := hd
        have h0 : cmp d.key key = 0 := by rw [hd1]; exact hc.refl key
        simp only [h0, if_true, Option.some.injEq] at h
        subst h
        rw [enumerate_plug]
        simp [whole, enumerate, hd1, hd2, hd3]
    · simp at h

theorem insert_spec [Inhabited V] (hc : LawfulCmp cmp) {t t' : RTree K V} {key : K} {value : V}
    (h : insert cmp t key value = some t') (hs : Sorted cmp (enumerate t)) :
    enumerate t' = insertL cmp key value (enumerate t) := by
  unfold insert at h
  split at h
  · simp only [Option.some.injEq] at h; subst h; simp [enumerate, insertL]
  · simp only [Option.map_eq_some_iff] at h
    obtain ⟨u, hu, rfl⟩ := h
    rw [enumerate_setRed]
    have := insLoop_spec hc hu (by simpa [whole, leftL, rightL] using hs) (by simp [leftL]) (by simp [rightL])
    simpa [whole, leftL, rightL] using this

/-! ## get -/

theorem get_spec (hc : LawfulCmp cmp) {t : RTree K V} (hs : Sorted cmp (enumerate t)) (key : K) :
    get cmp t key = (lookupL cmp key (enumerate t)).map Prod.snd := by
  induction t with
  | nil => rfl
  | node d l r ihl ihr =>
    have hs' := hs
    simp only [enumerate] at hs
    have h1 := List.pairwise_append.1 hs
    unfold get
    simp only [enumerate]
    rw [lookupL_append]
    by_cases h0 : cmp d.key key = 0
    · simp only [h0, if_true]
      rw [lookupL_none (fun a ha => by have := hs.left_lt hc (k := key) (by simp; omega) a ha; omega)]
      simp [lookupL, h0]
    · simp only [h0, if_false]
      by_cases hlt : cmp d.key key < 0
      · simp only [hlt, if_true]
        rw [lookupL_none (fun a ha => by have := hs.left_lt hc (k := key) (by simp; omega) a ha; omega)]
        rw [ihr (List.Pairwise.of_cons h1.2.1)]
        simp [lookupL, h0]
      · simp only [hlt, if_false]
        rw [ihl h1.1]
        have : lookupL cmp key ((d.key, d.value) :: enumerate r) = none := lookupL_none (by
          intro a ha
          simp only [List.mem_cons] at ha
          rcases ha with rfl | ha
          · exact h0
          · have := hs.right_gt hc (k := key) (by simp; omega) a ha; omega)
        rw [this]; simp

/-! ## del -/

theorem mem_leftL_cons {f : Frame K V} {ctx : List (Frame K V)} {a : K × V} :
    a ∈ leftL (f :: ctx) ↔ a ∈ leftL ctx ∨ (f.dir = true ∧ (a ∈ enumerate f.sib ∨ a = (f.d.key, f.d.value))) := by
  simp only [leftL]
  cases f.dir <;> simp

/-- `Near ctx` : the first frame left with direction "left" is the most recent target, if there is a target. -/
def Near : List (Frame K V) → Prop
  | [] => True
  | f :: fs => if f.dir then f.tgt = false ∧ Near fs else (f.tgt = false → ∀ g ∈ fs, g.tgt = false)

theorem delFix_spec (ctx : List (Frame K V)) (f : Frame K V) (x : RTree K V) :
    leftL (delFix ctx f x) = leftL (f :: ctx) ∧ rightL (delFix ctx f x) = rightL (f :: ctx) ∧
    ((delFix ctx f x).any (·.tgt) = (f :: ctx).any (·.tgt)) ∧ (Near (f :: ctx) → Near (delFix ctx f x)) := by
  unfold delFix
  have hsingle : ∀ (P : Frame K V) rest sd sl sr, P.sib = .node sd sl sr →
      leftL (delFix.single P f rest sd (.node sd sl sr)) = leftL (f :: P :: rest) ∧
      rightL (delFix.single P f rest sd (.node sd sl sr)) = rightL (f :: P :: rest) ∧
      ((delFix.single P f rest sd (.node sd sl sr)).any (·.tgt) = (f :: P :: rest).any (·.tgt)) ∧
      (Near (f :: P :: rest) → Near (delFix.single P f rest sd (.node sd sl sr))) := by
    intro P rest sd sl sr hs
    unfold delFix.single
    refine ⟨?_, ?_, ?_, ?_⟩
    · simp only [leftL, hs]
      cases P.dir <;> simp [enumerate]
    · simp only [rightL, hs]
      cases P.dir <;> simp [enumerate]
    · simp
    · simp only [Near]
      cases P.dir <;> cases f.dir <;> simp
  have hsib : leftL (delFix.delSib ctx f) = leftL (f :: ctx) ∧ rightL (delFix.delSib ctx f) = rightL (f :: ctx) ∧
    ((delFix.delSib ctx f).any (·.tgt) = (f :: ctx).any (·.tgt)) ∧ (Near (f :: ctx) → Near (delFix.delSib ctx f)) := by
    unfold delFix.delSib
    split
    · rename_i P rest
      split
      · rename_i sd sl sr hs
        simp only
        split
        · refine ⟨?_, ?_, by simp, by simp [Near]⟩
          · simp only [leftL, hs]; cases P.dir <;> simp [enumerate]
          · simp only [rightL, hs]; cases P.dir <;> simp [enumerate]
        · split
          · rename_i xd xl xr hx
            split
            · refine ⟨?_, ?_, by simp, ?_⟩
              · simp only [leftL, hs]
                cases hd : P.dir <;> rw [hd] at hx <;> simp at hx <;> subst hx <;> simp [enumerate]
              · simp only [rightL, hs]
                cases hd : P.dir <;> rw [hd] at hx <;> simp at hx <;> subst hx <;> simp [enumerate]
              · simp only [Near]
                cases P.dir <;> cases f.dir <;> simp
            · exact hsingle P rest sd sl sr hs
          · exact hsingle P rest sd sl sr hs
      · exact ⟨rfl, rfl, rfl, id⟩
    · exact ⟨rfl, rfl, rfl, id⟩
  split
  · split
    · rename_i yd yl yr hy
      split
      · refine ⟨?_, ?_, by simp, ?_⟩
        · simp only [leftL, hy]; cases f.dir <;> simp [enumerate]
        · simp only [rightL, hy]; cases f.dir <;> simp [enumerate]
        · simp only [Near]
          cases f.dir <;> simp
      · exact hsib
    · exact hsib
  · exact ⟨rfl, rfl, rfl, id⟩

theorem leftL_setTgt {k : K} {v : V} {ctx : List (Frame K V)} (hn : Near ctx) : leftL (setTgt k v ctx) = leftL ctx := by
  induction ctx with
  | nil => rfl
  | cons f fs ih =>
    unfold setTgt
    simp only [Near] at hn
    cases hd : f.dir
    · by_cases ht : f.tgt = true
      · simp [ht, leftL, hd]
      · simp only [ht]
        simp only [hd, Bool.false_eq_true, if_false] at hn
        have hnone := hn (by simpa using ht)
        have : setTgt k v fs = fs := by
          clear ih hn
          induction fs with
          | nil => rfl
          | cons g gs ih2 => simp only [setTgt, hnone g (by simp), Bool.false_eq_true, if_false]; rw [ih2 (fun x hx => hnone x (by simp [hx]))]
        simp [leftL, this]
    · simp only [hd, if_true] at hn
      simp [hn.1, leftL, hd, ih hn.2]

theorem rightL_setTgt {k : K} {v : V} {ctx : List (Frame K V)} (hn : Near ctx) (ht : ctx.any (·.tgt) = true) :
    ∃ t rest, rightL ctx = t :: rest ∧ rightL (setTgt k v ctx) = (k, v) :: rest := by
  induction ctx with
  | nil => simp at ht
  | cons f fs ih =>
    unfold setTgt
    simp only [Near] at hn
    cases hd : f.dir
    · simp only [hd, Bool.false_eq_true, if_false] at hn
      have htt : f.tgt = true := by
        cases h1 : f.tgt
        · exfalso
          have := hn h1
          simp only [List.any_cons, h1, Bool.false_or, List.any_eq_true] at ht
          obtain ⟨x, hx, hx2⟩ := ht
          rw [this x hx] at hx2; cases hx2
        · rfl
      exact ⟨(f.d.key, f.d.value), enumerate f.sib ++ rightL fs, by simp [rightL, hd], by simp [htt, rightL]⟩
    · simp only [hd, if_true] at hn
      simp only [List.any_cons, hn.1, Bool.false_or] at ht
      obtain ⟨t, rest, h1, h2⟩ := ih hn.2 ht
      exact ⟨t, rest, by simp [rightL, hd, h1], by simp [hn.1, rightL, hd, h2]⟩

/-- Searched-position invariant of the deletion loop. -/
structure DelInv (cmp : K → K → Int) (key : K) (ctx : List (Frame K V)) : Prop where
  near : Near ctx
  left : ∀ a ∈ leftL ctx, cmp a.1 key < 0
  right : ctx.any (·.tgt) = false → ∀ a ∈ rightL ctx, 0 < cmp a.1 key
  right' : ctx.any (·.tgt) = true → ∃ t rest, rightL ctx = t :: rest ∧ cmp t.1 key = 0

theorem delEnd_spec {key : K} {ctx : List (Frame K V)} (hi : DelInv cmp key ctx) :
    enumerate (delEnd ctx).1 = eraseL cmp key (leftL ctx ++ rightL ctx) ∧
    ((delEnd ctx).2 = true ↔ ∃ a ∈ leftL ctx ++ rightL ctx, cmp a.1 key = 0) := by
  cases ctx with
  | nil => simp [delEnd, enumerate, leftL, rightL, eraseL]
  | cons f rest =>
    have hnear := hi.near
    unfold delEnd
    by_cases ht : f.tgt = true
    · simp only [ht, if_true]
      have hdir : f.dir = false := by
        cases hd : f.dir
        · rfl
        · simp only [Near, hd, if_true, ht] at hnear; simp at hnear
      obtain ⟨t, r', h1, h2⟩ := hi.right' (by simp [ht])
      have hl := hi.left
      rw [h1, eraseL_mid hl h2]
      have h3 : t :: r' = (f.d.key, f.d.value) :: (enumerate f.sib ++ rightL rest) := by
        rw [← h1]; simp [rightL, hdir]
      refine ⟨?_, ?_⟩
      · rw [enumerate_plug]
        have h4 : r' = enumerate f.sib ++ rightL rest := by simpa using (List.cons.inj h3).2
        rw [h4]; simp [whole, leftL, hdir]
      · simp only [true_iff]; exact ⟨t, by simp, h2⟩
    · have ht' : f.tgt = false := by simpa using ht
      simp only [ht', Bool.false_eq_true, if_false]
      by_cases hr : rest.any (·.tgt) = true
      · simp only [hr, if_true]
        have hdir : f.dir = true := by
          cases hd : f.dir
          · simp only [Near, hd, Bool.false_eq_true, if_false] at hnear
            have := hnear ht'
            simp only [List.any_eq_true] at hr
            obtain ⟨x, hx, hx2⟩ := hr
            rw [this x hx] at hx2; cases hx2
          · rfl
        simp only [Near, hdir, if_true] at hnear
        obtain ⟨t, r', h1, h2⟩ := hi.right' (by simp [hr])
        have hl := hi.left
        obtain ⟨t2, r2, h5, h6⟩ := rightL_setTgt (k := f.d.key) (v := f.d.value) hnear.2 hr
        have h7 : rightL (f :: rest) = rightL rest := by simp [rightL, hdir]
        rw [h7, h5] at h1
        obtain ⟨rfl, rfl⟩ := List.cons.inj h1
        rw [h7, h5, eraseL_mid hl h2]
        refine ⟨?_, ?_⟩
        · rw [enumerate_plug]
          simp [whole, leftL_setTgt hnear.2, h6, leftL, hdir]
        · simp only [true_iff]; exact ⟨t2, by simp, h2⟩
      · have hr' : rest.any (·.tgt) = false := by simpa using hr
        simp only [hr', Bool.false_eq_true, if_false]
        have hne : ∀ a ∈ leftL (f :: rest) ++ rightL (f :: rest), cmp a.1 key ≠ 0 := by
          intro a ha
          rcases List.mem_append.1 ha with ha | ha
          · have := hi.left a ha; omega
          · have := hi.right (by simp [ht', hr']) a ha; omega
        rw [eraseL_none hne]
        refine ⟨?_, ?_⟩
        · rw [enumerate_plug]
          simp only [whole, leftL, rightL, enumerate_mk2]
          cases f.dir <;> simp [enumerate]
        · simp only [false_iff]
          rintro ⟨a, ha, h0⟩
          exact hne a ha h0

theorem delLoop_spec (hc : LawfulCmp cmp) {key : K} {ctx : List (Frame K V)} {foc : RTree K V}
    (hs : Sorted cmp (whole ctx foc)) (hi : DelInv cmp key ctx) :
    enumerate (delLoop cmp key ctx foc).1 = eraseL cmp key (whole ctx foc) ∧
    ((delLoop cmp key ctx foc).2 = true ↔ ∃ a ∈ whole ctx foc, cmp a.1 key = 0) := by
  induction foc generalizing ctx with
  | nil =>
    have : whole ctx .nil = leftL ctx ++ rightL ctx := by simp [whole, enumerate]
    rw [this]; exact delEnd_spec hi
  | node d l r ihl ihr =>
    have e : whole ctx (.node d l r) = (leftL ctx ++ enumerate l) ++ (d.key, d.value) :: (enumerate r ++ rightL ctx) := by
      simp [whole, enumerate]
    unfold delLoop
    simp only
    split
    · rename_i hlt
      obtain ⟨f1, f2, f3, f4⟩ := delFix_spec ctx { d := d, dir := true, sib := l, tgt := false } r
      have e2 : whole (delFix ctx { d := d, dir := true, sib := l, tgt := false } r) r = whole ctx (.node d l r) := by
        simp only [whole, f1, f2]; simp [leftL, rightL, enumerate]
      have hs2 := hs
      rw [← e2] at hs ⊢
      refine ihr hs ⟨f4 ⟨rfl, hi.near⟩, ?_, ?_, ?_⟩
      · rw [f1]
        intro a ha
        rw [e] at hs2
        simp only [leftL, if_true, List.mem_append, List.mem_singleton] at ha
        rcases ha with ha | ha | rfl
        · exact hi.left a ha
        · exact hs2.left_lt hc (k := key) (by simp; omega) a (by simp [ha])
        · exact hlt
      · rw [f2, f3]; simpa [rightL] using hi.right
      · rw [f2, f3]; simpa [rightL] using hi.right'
    · rename_i hlt
      obtain ⟨f1, f2, f3, f4⟩ := delFix_spec ctx { d := d, dir := false, sib := r, tgt := decide (cmp d.key key = 0) } l
      have e2 : whole (delFix ctx { d := d, dir := false, sib := r, tgt := decide (cmp d.key key = 0) } l) l = whole ctx (.node d l r) := by
        simp only [whole, f1, f2]; simp [leftL, rightL, enumerate]
      have hs2 := hs
      rw [e] at hs2
      have hgt := hs2.right_gt hc (k := key) (by simp; omega)
      -- a target seen before would be right of the current node, and greater
      have hno : ctx.any (·.tgt) = false := by
        cases hx : ctx.any (·.tgt)
        · rfl
        · obtain ⟨t, rest, h1, h2⟩ := hi.right' hx
          have := hgt t (by simp [h1])
          omega
      rw [← e2] at hs ⊢
      refine ihl hs ⟨f4 ?_, ?_, ?_, ?_⟩
      · simp only [Near, Bool.false_eq_true, if_false]
        intro _ g hg
        have := List.any_eq_false.1 hno g hg
        simpa using this
      · rw [f1]; simpa [leftL] using hi.left
      · rw [f2, f3]
        intro hx a ha
        simp only [List.any_cons, hno, Bool.or_false, decide_eq_false_iff_not] at hx
        simp only [rightL, Bool.false_eq_true, if_false, List.cons_append, List.mem_cons] at ha
        rcases ha with rfl | ha
        · simp only; omega
        · exact hgt a ha
      · rw [f2, f3]
        intro hx
        simp only [List.any_cons, hno, Bool.or_false, decide_eq_true_eq] at hx
        exact ⟨(d.key, d.value), enumerate r ++ rightL ctx, by simp [rightL], hx⟩

theorem del_spec (hc : LawfulCmp cmp) {t : RTree K V} (hs : Sorted cmp (enumerate t)) (key : K) :
    enumerate (del cmp t key).1 = eraseL cmp key (enumerate t) ∧
    ((del cmp t key).2 = true ↔ ∃ a ∈ enumerate t, cmp a.1 key = 0) := by
  have h : whole [] t = enumerate t := by simp [whole, leftL, rightL]
  have := delLoop_spec hc (key := key) (ctx := []) (foc := t) (by rw [h]; exact hs)
    ⟨trivial, by simp [leftL], by simp [rightL], by simp⟩
  rw [h] at this
  simpa [del] using this

end Verif.RB
