import Verif.Etc.Model
import Verif.Etc.Clean

/-! # fullSplit, hasPrefix, getRelName and makePrefix -/

namespace Verif.Etc
open Verif.Path

theorem pieces_sep (a b : Bytes) : pieces (a ++ 47 :: b) = pieces a ++ pieces b := by
  induction a with
  | nil => simp [pieces]
  | cons x a ih =>
    by_cases h : x = 47
    · simp [pieces, h, ih]
    · simp only [List.cons_append, pieces, if_neg h, ih]
      cases h : pieces a with
      | nil =>
        exfalso
        cases a with
        | nil => simp [pieces] at h
        | cons y a => simp only [pieces] at h; split at h <;> (try simp at h); split at h <;> simp at h
      | cons u v => simp

theorem pieces_joined {l : List Bytes} (h : ∀ c ∈ l, (47 : UInt8) ∉ c) (hne : l ≠ []) : pieces (joined l) = l := by
  induction l with
  | nil => simp at hne
  | cons a l ih =>
    cases l with
    | nil => simpa [joined] using (pieces_name (h a (by simp)) []).2
    | cons b l =>
      simp only [joined, pieces_sep]
      rw [(pieces_name (h a (by simp)) []).2, ih (fun c hc => h c (by simp [hc])) (by simp)]
      simp

theorem fold_cs (rooted : Prop) [Decidable rooted] {cs : List Bytes} (h : ∀ c ∈ cs, Nm c) (st : List Bytes) :
    cs.foldl (walk rooted) st = st ++ cs := by
  induction cs generalizing st with
  | nil => simp
  | cons c cs ih =>
    rw [List.foldl_cons, walk_nm rooted (h c (by simp)), ih (fun c hc => h c (by simp [hc]))]
    simp

theorem fold_ups (rooted : Prop) [Decidable rooted] (hr : ¬ rooted) (k j : Nat) :
    (List.replicate k dot2).foldl (walk rooted) (ups j []) = ups (j + k) [] := by
  induction k generalizing j with
  | zero => simp
  | succ k ih =>
    rw [List.replicate_succ, List.foldl_cons, walk_up_nil rooted j (fun h => absurd h hr), if_neg hr, ih]
    congr 1; omega

theorem fold_normal {rooted : Prop} [Decidable rooted] {l : List Bytes} (h : Normal rooted l) : l.foldl (walk rooted) [] = l := by
  obtain ⟨k, cs, h1, h2, rfl⟩ := h
  simp only [ups, List.foldl_append]
  by_cases hr : rooted
  · obtain rfl := h2 hr
    simpa using fold_cs rooted h1 []
  · have := fold_ups rooted hr k 0
    simp only [ups, List.replicate_zero, List.append_nil, Nat.zero_add] at this
    rw [this, fold_cs rooted h1]

theorem Normal.nosl {rooted : Prop} {l : List Bytes} (h : Normal rooted l) : ∀ c ∈ l, (47 : UInt8) ∉ c ∧ c ≠ [] := by
  obtain ⟨k, cs, h1, h2, rfl⟩ := h
  intro c hc
  simp only [ups, List.mem_append, List.mem_replicate] at hc
  rcases hc with ⟨_, rfl⟩ | hc
  · simp [dot2]
  · exact ⟨(h1 c hc).nosl, (h1 c hc).ne⟩

theorem Normal.init {rooted : Prop} {l : List Bytes} {f : Bytes} (h : Normal rooted (l ++ [f])) : Normal rooted l := by
  obtain ⟨k, cs, h1, h2, e⟩ := h
  rcases List.eq_nil_or_concat cs with rfl | ⟨cs0, c0, rfl⟩
  · cases k with
    | zero => simp [ups] at e
    | succ k =>
      have : ups (k + 1) [] = ups k [] ++ [dot2] := by simp [ups, List.replicate_succ']
      rw [this] at e
      have := List.append_inj_left' e rfl
      exact ⟨k, [], by simp, fun hr => by simpa using h2 hr, this⟩
  · have e2 : ups k (cs0.concat c0) = ups k cs0 ++ [c0] := by simp [ups]
    rw [e2] at e
    exact ⟨k, cs0, fun c hc => h1 c (by simp [hc]), h2, List.append_inj_left' e rfl⟩

theorem Normal.drop {rooted : Prop} {l : List Bytes} (h : Normal rooted l) (n : Nat) : Normal False (l.drop n) := by
  obtain ⟨k, cs, h1, _, rfl⟩ := h
  refine ⟨k - n, cs.drop (n - k), fun c hc => h1 c (List.mem_of_mem_drop hc), by simp, ?_⟩
  simp [ups, List.drop_append]

/-- Texts that lead to a given place. -/
theorem clean_of {rooted : Prop} [Decidable rooted] {l : List Bytes} {p : Bytes} (hr : Rooted p ↔ rooted)
    (hl : Normal rooted l) (hp : (pieces p).filter (· ≠ []) = l) :
    place p = l ∧ Clean p = text rooted l := by
  have hf : ∀ (ps : List Bytes) st, ps.foldl (walk (Rooted p)) st = (ps.filter (· ≠ [])).foldl (walk rooted) st := by
    have hw : walk (Rooted p) = walk rooted := by
      funext st c; simp only [walk, hr]
    intro ps
    induction ps with
    | nil => simp
    | cons a ps ih =>
      intro st
      by_cases ha : a = []
      · subst ha; simp [walk, ih]
      · rw [List.filter_cons_of_pos (by simpa using ha), List.foldl_cons, List.foldl_cons, ih, hw]
  have e : place p = l := by rw [place, hf, hp, fold_normal hl]
  refine ⟨e, ?_⟩
  rw [(place_clean p).2, e]; simp only [text, hr]

theorem filter_ne {l : List Bytes} (h : ∀ c ∈ l, c ≠ []) : l.filter (· ≠ []) = l := by
  rw [List.filter_eq_self]; intro a ha; simpa using h a ha

theorem joined_head {l : List Bytes} (h : ∀ c ∈ l, (47 : UInt8) ∉ c ∧ c ≠ []) : (joined l).head? ≠ some 47 := by
  cases l with
  | nil => simp [joined]
  | cons a l =>
    have := h a (by simp)
    cases a with
    | nil => simp at this
    | cons x a =>
      have hx : x ≠ 47 := by intro hx; simp [hx] at this
      cases l <;> simp [joined, hx]

/-- The directory part of a text. -/
def dirText (rooted : Prop) [Decidable rooted] (l : List Bytes) : Bytes :=
  (if rooted then [47] else []) ++ (if l = [] then [] else joined l ++ [47])

theorem clean_dirText {rooted : Prop} [Decidable rooted] {l : List Bytes} (hl : Normal rooted l) (hne : rooted ∨ l ≠ []) :
    Clean (dirText rooted l) = text rooted l := by
  have hno := hl.nosl
  have hfil := filter_ne (fun c hc => (hno c hc).2)
  apply (clean_of (rooted := rooted) _ hl _).2
  · by_cases hr : rooted
    · simp [dirText, hr, Rooted]
    · have hl : l ≠ [] := by simpa [hr] using hne
      simp only [dirText, hr, if_false, List.nil_append, if_neg hl, Rooted, iff_false, List.head?_append]
      have h1 := joined_head hno
      have h2 : joined l ≠ [] := fun h => hl ((joined_eq_nil (fun c hc => (hno c hc).2)).1 h)
      cases h : joined l <;> simp_all
  · have hp : l ≠ [] → pieces (joined l ++ [47]) = l ++ [[]] := fun hl => by
      rw [pieces_sep, pieces_joined (fun c hc => (hno c hc).1) hl]; simp [pieces]
    by_cases hl0 : l = []
    · have hr : rooted := by simpa [hl0] using hne
      simp [dirText, hr, hl0, pieces]
    · by_cases hr : rooted
      · have : dirText rooted l = [] ++ 47 :: (joined l ++ [47]) := by simp [dirText, hr, hl0]
        rw [this, pieces_sep, hp hl0]
        simp only [List.filter_append, hfil]; simp [pieces]
      · have : dirText rooted l = joined l ++ [47] := by simp [dirText, hr, hl0]
        rw [this, hp hl0]
        simp only [List.filter_append, hfil]; simp

theorem split_sep {f : Bytes} (hf : (47 : UInt8) ∉ f) (a : Bytes) : Split (a ++ 47 :: f) = (a ++ [47], f) := by
  have h1 : (f.reverse ++ 47 :: a.reverse).takeWhile (· ≠ 47) = f.reverse := by
    rw [List.takeWhile_append_of_pos (by intro x hx; simp at hx ⊢; rintro rfl; exact hf hx)]
    simp
  have h2 : (f.reverse ++ 47 :: a.reverse).dropWhile (· ≠ 47) = 47 :: a.reverse := by
    rw [List.dropWhile_append_of_pos (by intro x hx; simp at hx ⊢; rintro rfl; exact hf hx)]
    simp
  simp only [Split, List.reverse_append, List.reverse_cons, List.append_assoc, List.singleton_append, h1, h2]
  simp

theorem split_name {f : Bytes} (hf : (47 : UInt8) ∉ f) : Split f = ([], f) := by
  have h1 : (f.reverse ++ []).takeWhile (· ≠ 47) = f.reverse := by
    rw [List.takeWhile_append_of_pos (by intro x hx; simp at hx ⊢; rintro rfl; exact hf hx)]
    simp
  have h2 : (f.reverse ++ []).dropWhile (· ≠ 47) = [] := by
    rw [List.dropWhile_append_of_pos (by intro x hx; simp at hx ⊢; rintro rfl; exact hf hx)]
    simp
  rw [List.append_nil] at h1 h2
  simp only [Split, h1, h2]; simp

/-- `Split` of a cleaned path. -/
theorem split_text {rooted : Prop} [Decidable rooted] {l : List Bytes} {f : Bytes} (h : Normal rooted (l ++ [f])) :
    Split (text rooted (l ++ [f])) = (dirText rooted l, f) := by
  have hf := (h.nosl f (by simp)).1
  by_cases hl : l = []
  · subst hl
    by_cases hr : rooted
    · simpa [text, dirText, hr, joined] using split_sep hf []
    · simpa [text, dirText, hr, joined] using split_name hf
  · by_cases hr : rooted
    · have := split_sep hf (47 :: joined l)
      simpa [text, dirText, hr, joined_snoc, hl] using this
    · have := split_sep hf (joined l)
      simpa [text, dirText, hr, joined_snoc, hl] using this

/-- Components of a place. -/
def comps (rooted : Prop) [Decidable rooted] (l : List Bytes) : List Bytes :=
  if rooted then [47] :: l else if l = [] then [dot1] else l

theorem set_drop {α : Type} (out : List α) (i : Nat) (x : α) (h : i < out.length) : (out.set i x).drop i = x :: out.drop (i + 1) := by
  induction out generalizing i with
  | nil => simp at h
  | cons a out ih =>
    cases i with
    | zero => simp
    | succ i => simpa using ih i (by simpa using h)

/-- The loop of `fullSplit` from a place on. -/
theorem splitLoop_spec {rooted : Prop} [Decidable rooted] (n : Nat) : ∀ (l : List Bytes) (fuel : Nat) (out : List Bytes) (i : Nat),
    l.length = n → Normal rooted l → i ≤ out.length → 2 * (n + 1) ≤ fuel →
    splitLoop fuel (text rooted l) out i = some (comps rooted l ++ out.drop i) := by
  induction n with
  | zero =>
    intro l fuel out i hl hN hi hf
    obtain rfl : l = [] := List.length_eq_zero_iff.1 hl
    have main : ∀ (fuel : Nat) (out : List Bytes) (i : Nat), i < out.length →
        splitLoop (fuel + 1) (text rooted []) out (i + 1) = some (comps rooted [] ++ out.drop (i + 1)) := by
      intro fuel out i hi
      by_cases hr : rooted
      · have e : text rooted [] = [] ++ 47 :: [] := by simp [text, hr, joined]
        rw [e]
        simp only [splitLoop, split_sep (f := []) (by simp)]
        have e2 : Clean ([] ++ [47]) = [47] := by decide +kernel
        rw [if_pos (by simp), e2, set_drop _ _ _ hi]
        simp [comps, hr]
      · have e : text rooted [] = dot1 := by simp [text, hr]
        rw [e]
        simp only [splitLoop, split_name (f := dot1) (by simp [dot1])]
        rw [if_neg (by simp [dot1]), if_pos (by simp), set_drop _ _ _ hi]
        simp [comps, hr]
    cases i with
    | zero =>
      obtain ⟨fuel, rfl⟩ : ∃ m, fuel = m + 2 := ⟨fuel - 2, by omega⟩
      rw [splitLoop]
      rw [show preAllocStrings = 9 + 1 from rfl, main _ _ _ (by simp)]
      simp
    | succ i =>
      obtain ⟨fuel, rfl⟩ : ∃ m, fuel = m + 1 := ⟨fuel - 1, by omega⟩
      exact main _ _ _ (by omega)
  | succ n ih =>
    intro l fuel out i hl hN hi hf
    rcases List.eq_nil_or_concat l with rfl | ⟨l, f, rfl⟩
    · simp at hl
    simp only [List.concat_eq_append] at *
    have hfne : f ≠ [] := (hN.nosl f (by simp)).2
    have hln : l.length = n := by simpa using hl
    have main : ∀ (fuel : Nat) (out : List Bytes) (i : Nat), i < out.length → 2 * (n + 1) ≤ fuel →
        splitLoop (fuel + 1) (text rooted (l ++ [f])) out (i + 1) = some (comps rooted (l ++ [f]) ++ out.drop (i + 1)) := by
      intro fuel out i hi hfu
      simp only [splitLoop, split_text hN]
      rw [if_neg (by simpa using hfne)]
      by_cases hd : (dirText rooted l).length = 0
      · rw [if_pos hd, set_drop _ _ _ hi]
        have : ¬ rooted ∧ l = [] := by
          constructor
          · intro hr; simp [dirText, hr] at hd
          · apply Classical.byContradiction; intro hl; simp [dirText, hl] at hd
        simp [comps, this.1, this.2]
      · rw [if_neg hd]
        have hd : rooted ∨ l ≠ [] := by
          by_cases hr : rooted
          · exact .inl hr
          · right; rintro rfl; simp [dirText, hr] at hd
        rw [clean_dirText hN.init hd, ih l _ _ _ hln hN.init (by simp; omega) (by simpa using hfu), set_drop _ _ _ hi]
        by_cases hr : rooted
        · simp [comps, hr]
        · have : l ≠ [] := by simpa [hr] using hd
          simp [comps, hr, this]
    cases i with
    | zero =>
      obtain ⟨fuel, rfl⟩ : ∃ m, fuel = m + 2 := ⟨fuel - 2, by omega⟩
      rw [splitLoop]
      rw [show preAllocStrings = 9 + 1 from rfl, main _ _ _ (by simp) (by omega)]
      simp
    | succ i =>
      obtain ⟨fuel, rfl⟩ : ∃ m, fuel = m + 1 := ⟨fuel - 1, by omega⟩
      exact main _ _ _ (by omega) (by omega)

theorem pieces_length (p : Bytes) : (pieces p).length ≤ p.length + 1 := by
  induction p with
  | nil => simp [pieces]
  | cons c p ih =>
    simp only [pieces]
    split
    · simp; omega
    · split
      · simp
      · rename_i h; rw [h] at ih; simp at ih ⊢; omega

theorem fold_length (rooted : Prop) [Decidable rooted] (ps st : List Bytes) :
    (ps.foldl (walk rooted) st).length ≤ st.length + ps.length := by
  induction ps generalizing st with
  | nil => simp
  | cons a ps ih =>
    have h1 := ih (walk rooted st a)
    have h2 : (walk rooted st a).length ≤ st.length + 1 := by
      simp only [walk]
      split
      · omega
      · split
        · split
          · split <;> simp
          · split <;> simp; omega
        · simp
    simp only [List.foldl_cons, List.length_cons]; omega

theorem fullSplit_spec (p : Bytes) : fullSplit p = some (components p) := by
  obtain ⟨h1, h2⟩ := place_clean p
  have hlen : (place p).length ≤ p.length + 1 := by
    have := fold_length (Rooted p) (pieces p) []
    have := pieces_length p
    simp only [place]; simp at *; omega
  rw [fullSplit, h2, splitLoop_spec _ (place p) _ _ _ rfl h1 (by simp) (by omega)]
  simp [comps, components, List.drop_eq_nil_of_le]

theorem hasPrefix_spec (p pre : List Bytes) : hasPrefix p pre = true ↔ pre <+: p := by
  have h : ∀ (p pre : List Bytes), prefixLoop p pre = true ↔ pre <+: p := by
    intro p
    induction p with
    | nil => intro pre; cases pre <;> simp [prefixLoop]
    | cons a p ih =>
      intro pre
      cases pre with
      | nil => simp [prefixLoop]
      | cons b pre =>
        simp only [prefixLoop, List.cons_prefix_cons]
        split
        · rename_i hne; simp; intro hh; exact absurd hh.symm hne
        · rename_i hne; simp only [ne_eq, Classical.not_not] at hne; simp [hne, ih]
  simp only [hasPrefix]
  split
  · rename_i hlt
    simp only [Bool.false_eq_true, false_iff]
    intro hp; have := hp.length_le; omega
  · exact h p pre

/-! ## Base -/

theorem base_spec (p : Bytes) : Base p = lastName p := by
  by_cases hp : p = []
  · simp [Base, lastName, hp, dot1]
  have hstrip : ∀ r : Bytes, (pieces r.reverse).filter (· ≠ []) = (pieces (r.dropWhile (· = 47)).reverse).filter (· ≠ []) := by
    intro r
    induction r with
    | nil => simp
    | cons x r ih =>
      by_cases h : x = 47
      · subst h
        simp only [List.reverse_cons, pieces_sep r.reverse []]
        simp only [List.filter_append, ih]; simp [pieces]
      · simp [h]
  have hs := hstrip p.reverse
  rw [List.reverse_reverse] at hs
  simp only [Base, lastName, if_neg hp, hs]
  generalize hq : (List.dropWhile (fun x => decide (x = 47)) p.reverse) = q
  simp only [List.reverse_reverse]
  cases q with
  | nil => simp [pieces]
  | cons x q =>
    have hx : x ≠ 47 := by
      intro h
      have := List.head?_dropWhile_not (fun x => decide (x = (47 : UInt8))) p.reverse
      rw [hq] at this; simp [h] at this
    have hne : ((x :: q).takeWhile (· ≠ 47)).reverse ≠ [] := by simp [hx]
    have hnosl : (47 : UInt8) ∉ ((x :: q).takeWhile (· ≠ 47)).reverse := by simpa using takeWhile_nosl (x :: q)
    have hsplit : (x :: q).reverse = ((x :: q).dropWhile (· ≠ 47)).reverse ++ ((x :: q).takeWhile (· ≠ 47)).reverse := by
      rw [← List.reverse_append, List.takeWhile_append_dropWhile]
    rw [if_neg hne]
    rw [hsplit]
    generalize ((x :: q).takeWhile (· ≠ 47)).reverse = f at *
    rcases dropWhile_head (x :: q) with hd | hd
    · rw [hd]
      simp [(pieces_name hnosl []).2, hne]
    · cases hD : (x :: q).dropWhile (· ≠ 47) with
      | nil => rw [hD] at hd; simp at hd
      | cons y u =>
        rw [hD] at hd
        simp only [List.head?_cons, Option.some.injEq] at hd
        subst hd
        simp only [List.reverse_cons, List.append_assoc, List.singleton_append, pieces_sep, (pieces_name hnosl []).2]
        simp [List.filter_append, hne]

/-! ## Join -/

theorem joinBuf_spec (buf : Bytes) (l : List Bytes) (h : ∀ c ∈ l, c ≠ []) :
    joinBuf buf l = if buf = [] then joined l else if l = [] then buf else buf ++ 47 :: joined l := by
  induction l generalizing buf with
  | nil => simp [joinBuf, joined]
  | cons a l ih =>
    have ha : a ≠ [] := h a (by simp)
    have ih := fun b => ih b (fun c hc => h c (by simp [hc]))
    simp only [joinBuf]
    rw [if_pos (by simp [ha]), ih]
    by_cases hb : buf = []
    · subst hb
      cases l <;> simp [ha, joined]
    · have : 0 < buf.length := List.length_pos_iff.2 hb
      cases l <;> simp [joined, hb, this]

theorem sum_ne {l : List Bytes} (h : ∀ c ∈ l, c ≠ []) (hl : l ≠ []) : (l.map List.length).sum ≠ 0 := by
  cases l with
  | nil => simp at hl
  | cons a l =>
    have := h a (by simp)
    simp [this]

theorem join_names {l : List Bytes} (h : Normal False l) : Join l = joined l := by
  have hno := h.nosl
  by_cases hl : l = []
  · simp [hl, Join, joined]
  · rw [Join, if_neg (sum_ne (fun c hc => (hno c hc).2) hl), joinBuf_spec _ _ (fun c hc => (hno c hc).2), if_pos rfl]
    have := (clean_of (rooted := False) (p := joined l) (by simpa [Rooted] using joined_head hno) h
      (by rw [pieces_joined (fun c hc => (hno c hc).1) hl, filter_ne (fun c hc => (hno c hc).2)])).2
    rw [this]; simp [text, hl]

theorem join_rooted {l : List Bytes} (h : Normal True l) : Join ([47] :: l) = 47 :: joined l := by
  have hno := h.nosl
  have hne : ∀ c ∈ [47] :: l, c ≠ [] := by
    intro c hc; rcases List.mem_cons.1 hc with rfl | hc
    · simp
    · exact (hno c hc).2
  rw [Join, if_neg (sum_ne hne (by simp)), joinBuf_spec _ _ hne, if_pos rfl]
  have := (clean_of (rooted := True) (p := joined ([47] :: l)) (by cases l <;> simp [Rooted, joined]) h
      (by
        cases l with
        | nil => simp [joined, pieces]
        | cons a l =>
          have e : joined ([47] :: a :: l) = [47] ++ 47 :: joined (a :: l) := rfl
          rw [e, pieces_sep, pieces_joined (fun c hc => (hno c hc).1) (by simp), List.filter_append, filter_ne (fun c hc => (hno c hc).2)]
          simp [pieces])).2
  rw [this]; simp [text]

end Verif.Etc
