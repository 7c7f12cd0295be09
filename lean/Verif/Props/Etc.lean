import Verif.Etc.Names
import Verif.Etc.Data
import Verif.Spec.Select

/-! # Properties of the template tool's path and data selection -/

namespace Verif.Props
open Verif Verif.Etc Verif.Path

/-- C52, first part: `fullSplit` returns the components of any path, however many there are. -/
theorem C52_fullSplit (p : Bytes) : fullSplit p = some (components p) := fullSplit_spec p

/-- C52, first part, for paths written as names with slashes between them: the names come back in order. -/
theorem C52_names (l : List Bytes) (hne : l ≠ []) (hl : ∀ c ∈ l, c ≠ [] ∧ (47 : UInt8) ∉ c ∧ c ≠ dot1 ∧ c ≠ dot2) :
    fullSplit (joined l) = some l ∧ fullSplit (47 :: joined l) = some ([47] :: l) := by
  have hN : ∀ r : Prop, Normal r l := fun r => ⟨0, l, fun c hc => ⟨(hl c hc).1, (hl c hc).2.1, (hl c hc).2.2.1, (hl c hc).2.2.2⟩, by simp, by simp [ups]⟩
  have hno := (hN False).nosl
  have hj := pieces_joined (fun c hc => (hno c hc).1) hne
  have hfil := filter_ne (fun c hc => (hno c hc).2)
  have h1 : ¬ Rooted (joined l) := by simpa [Rooted] using joined_head hno
  have h2 : Rooted (47 :: joined l) := rfl
  constructor
  · have := (clean_of (rooted := False) (p := joined l) (by simpa using h1) (hN _) (by rw [hj, hfil])).1
    rw [fullSplit_spec]; simp [components, h1, this, hne]
  · have := (clean_of (rooted := True) (p := 47 :: joined l) (by simpa using h2) (hN _) (by
      have e : (47 :: joined l) = [] ++ 47 :: joined l := rfl
      rw [e, pieces_sep, List.filter_append, hj, hfil]; simp [pieces])).1
    rw [fullSplit_spec]; simp [components, h2, this]

/-- C52, second part: `hasPrefix` compares component by component. -/
theorem C52_hasPrefix (p pre : List Bytes) : hasPrefix p pre = true ↔ ∃ rest, p = pre ++ rest := by
  rw [hasPrefix_spec]
  exact ⟨fun ⟨r, h⟩ => ⟨r, h.symm⟩, fun ⟨r, h⟩ => ⟨r, h.symm⟩⟩

/-- Text of some components of a path; a leading "/" brings its own slash. -/
def relText : List Bytes → Bytes
  | [] => []
  | c :: l => if c = [47] then 47 :: joined l else joined (c :: l)

/-- C52, third part: the prefix components are stripped if they are a prefix, otherwise the base name is returned. -/
theorem C52_getRelName (p : Bytes) (pre : List Bytes) :
    (∀ rest, components p = pre ++ rest → getRelName p pre = some (relText rest)) ∧
    ((∀ rest, components p ≠ pre ++ rest) → getRelName p pre = some (lastName p)) := by
  have hN := (place_clean p).1
  constructor
  · intro rest h
    have hp : hasPrefix (components p) pre = true := (C52_hasPrefix _ _).2 ⟨rest, h⟩
    simp only [getRelName, fullSplit_spec, Option.map_some, hp, if_true, Option.some.injEq]
    have hd : (components p).drop pre.length = rest := by rw [h]; simp
    rw [hd]
    by_cases hr : Rooted p
    · have hc : components p = [47] :: place p := by simp [components, hr]
      have hNt : Normal True (place p) := by
        obtain ⟨k, cs, a, b, e⟩ := hN; exact ⟨k, cs, a, fun _ => b hr, e⟩
      cases pre with
      | nil =>
        simp only [List.nil_append] at h
        rw [← h, hc, join_rooted hNt]; simp [relText]
      | cons a pre =>
        rw [hc, List.cons_append] at h
        simp only [List.cons.injEq] at h
        have hrest : rest = (place p).drop pre.length := by rw [h.2]; simp
        have hN' := hN.drop pre.length
        rw [← hrest] at hN'
        rw [join_names hN']
        cases rest with
        | nil => rfl
        | cons c l =>
          have : c ≠ [47] := fun hc => by simpa [hc] using (hN'.nosl c (by simp)).1
          simp [relText, this]
    · have hNf : Normal False (place p) := by
        obtain ⟨k, cs, a, b, e⟩ := hN; exact ⟨k, cs, a, fun h => h.elim, e⟩
      by_cases hl : place p = []
      · have hc : components p = [dot1] := by simp [components, hr, hl]
        rw [hc] at h
        have : (pre = [] ∧ rest = [dot1]) ∨ rest = [] := by
          cases pre with
          | nil => left; simpa using h.symm
          | cons a pre => right; simp at h; exact h.2.2
        rcases this with ⟨-, rfl⟩ | rfl
        · decide +kernel
        · decide +kernel
      · have hc : components p = place p := by simp [components, hr, hl]
        rw [hc] at h
        have hrest : rest = (place p).drop pre.length := by rw [h]; simp
        have hN' := hN.drop pre.length
        rw [← hrest] at hN'
        rw [join_names hN']
        cases rest with
        | nil => rfl
        | cons c l =>
          have : c ≠ [47] := fun hc => by simpa [hc] using (hN'.nosl c (by simp)).1
          simp [relText, this]
  · intro h
    have hp : hasPrefix (components p) pre = false := by
      rw [Bool.eq_false_iff]; intro hp
      obtain ⟨r, hr⟩ := (C52_hasPrefix _ _).1 hp
      exact h r hr
    simp [getRelName, fullSplit_spec, hp, base_spec]

/-- 40 components "a": the array is enlarged several times. -/
example : fullSplit (joined (List.replicate 40 [97])) = some (List.replicate 40 [97]) := by decide +kernel
/-- "/a/b/../c/d" against "/", "a". -/
example : getRelName [47, 97, 47, 98, 47, 46, 46, 47, 99, 47, 100] [[47], [97]] = some [99, 47, 100] := by decide +kernel
/-- Another prefix: base name. -/
example : getRelName [47, 97, 47, 99, 47, 100, 47] [[47], [98]] = some [100] := by decide +kernel

/-- C54: the prefix computed for a template at `/l/f` is `/l`, and everything at or below the template is shown relative to
it, beginning with the template's own name. -/
theorem C54_relative_names (wd t : Bytes) (l : List Bytes) (f : Bytes) (items : List Bytes)
    (habs : Abs wd t = 47 :: joined (l ++ [f]))
    (hl : ∀ c ∈ l ++ [f] ++ items, c ≠ [] ∧ (47 : UInt8) ∉ c ∧ c ≠ dot1 ∧ c ≠ dot2) :
    ∃ pre, makePrefix wd t = some pre ∧
      getRelName (47 :: joined (l ++ [f] ++ items)) pre = some (joined (f :: items)) := by
  have hN : ∀ (r : Prop) (m : List Bytes), (∀ c ∈ m, c ∈ l ++ [f] ++ items) → Normal r m := fun r m hm =>
    ⟨0, m, fun c hc => have h := hl c (hm c hc); ⟨h.1, h.2.1, h.2.2.1, h.2.2.2⟩, by simp, by simp [ups]⟩
  have hNlf : Normal True (l ++ [f]) := hN _ _ (by intro c hc; simp at hc ⊢; grind)
  have hNl : Normal True l := hNlf.init
  have hs := split_text hNlf
  have ht : text True (l ++ [f]) = 47 :: joined (l ++ [f]) := by simp [text]
  rw [ht, ← habs] at hs
  have hf := hl f (by simp)
  refine ⟨[47] :: l, ?_, ?_⟩
  · have hc := clean_dirText hNl (.inl trivial)
    have hpl : Rooted (dirText True l) ∧ place (dirText True l) = l := by
      have hr : Rooted (dirText True l) := by simp [dirText, Rooted]
      refine ⟨hr, ?_⟩
      have hno := hNl.nosl
      refine (clean_of (rooted := True) (by simp [hr]) hNl ?_).1
      by_cases h0 : l = []
      · simp [dirText, h0, pieces]
      · have : dirText True l = [] ++ 47 :: (joined l ++ 47 :: []) := by simp [dirText, h0]
        rw [this, pieces_sep, pieces_sep, pieces_joined (fun c hc => (hno c hc).1) h0, List.filter_append, List.filter_append,
          filter_ne (fun c hc => (hno c hc).2)]
        simp [pieces]
    rw [makePrefix, hs, if_neg (by simpa using hf.1), fullSplit_spec]
    simp [components, hpl.1, hpl.2]
  · have hcomp : components (47 :: joined (l ++ [f] ++ items)) = [47] :: (l ++ [f] ++ items) := by
      have := (C52_names (l ++ [f] ++ items) (by simp) hl).2
      rw [fullSplit_spec] at this; simpa using this
    have := (C52_getRelName (47 :: joined (l ++ [f] ++ items)) ([47] :: l)).1 (f :: items) (by rw [hcomp]; simp)
    rw [this]
    have : f ≠ [47] := fun h => by simp [h] at hf
    simp [relText, this]

/-- Every template path in an absolute working directory has such an absolute form, unless it is the root itself, in which
case the tool refuses to work. -/
theorem C54_absolute (wd t : Bytes) (hwd : Rooted wd) :
    (Abs wd t = [47] ∧ makePrefix wd t = none) ∨
    ∃ l f, Abs wd t = 47 :: joined (l ++ [f]) ∧ ∀ c ∈ l ++ [f], c ≠ [] ∧ (47 : UInt8) ∉ c ∧ c ≠ dot1 ∧ c ≠ dot2 := by
  obtain ⟨q, hq, hA⟩ : ∃ q, Rooted q ∧ Abs wd t = Clean q := by
    by_cases ht : t.head? = some 47
    · exact ⟨t, ht, by simp [Abs, ht]⟩
    · refine ⟨joinBuf [] [wd, t], ?_, ?_⟩
      · cases wd with
        | nil => simp [Rooted] at hwd
        | cons a wd => 
          simp only [Rooted, List.head?_cons] at hwd
          simp [joinBuf, Rooted, hwd]
      · have : wd ≠ [] := by rintro rfl; simp [Rooted] at hwd
        simp [Abs, ht, Join, this]
  obtain ⟨⟨k, cs, h1, h2, h3⟩, h4⟩ := place_clean q
  obtain rfl := h2 hq
  rw [h4, h3] at hA
  have hA : Abs wd t = 47 :: joined cs := by simpa [text, hq, ups] using hA
  rcases List.eq_nil_or_concat cs with rfl | ⟨l, f, rfl⟩
  · left
    have hA : Abs wd t = [47] := by simpa [joined] using hA
    refine ⟨hA, ?_⟩
    rw [makePrefix, hA]; decide +kernel
  · right
    refine ⟨l, f, by simpa using hA, fun c hc => ?_⟩
    have := h1 c (by simpa using hc)
    exact ⟨this.ne, this.nosl, this.ne1, this.ne2⟩

/-- Working directory "/a", template "b/../t", item "x" under it: prefix "/", "a" and shown as "t/x". -/
example : makePrefix [47, 97] [98, 47, 46, 46, 47, 116] = some [[47], [97]] ∧
    getRelName [47, 97, 47, 116, 47, 120] [[47], [97]] = some [116, 47, 120] := by decide +kernel

/-- Follow the keys from a map; an empty last key stands for the map itself. -/
def follow {X : Type} : List Bytes → List (Bytes × Val X) → Option (Val X)
  | [], m => some (.map m)
  | [k], m => if k = [] then some (.map m) else look m k
  | k :: ks, m =>
    match look m k with
    | some (.map m) => follow ks m
    | _ => none

/-- C55: `sel` follows the dot-separated keys through nested maps. -/
theorem C55_select {X : Type} (path : Bytes) (m : List (Bytes × Val X)) : sel path m = follow (Sel.parts path) m := by
  have hp : ∀ p : Bytes, Sel.parts p = match (splitN2 p).2 with
      | none => [(splitN2 p).1]
      | some q => (splitN2 p).1 :: Sel.parts q := by
    intro p
    induction p with
    | nil => simp [Sel.parts, splitN2]
    | cons c p ih =>
      by_cases h : c = 46
      · simp [Sel.parts, splitN2, h]
      · simp only [Sel.parts, splitN2, if_neg h]
        rw [ih]; cases (splitN2 p).2 <;> simp
  have hne : ∀ p : Bytes, Sel.parts p ≠ [] := by
    intro p; rw [hp]; split <;> simp
  induction hn : path.length using Nat.strongRecOn generalizing path m with
  | ind n ih =>
  subst hn
  rw [sel, hp path]
  by_cases h0 : path = []
  · subst h0; simp [splitN2, follow]
  · rw [if_pos (List.length_pos_iff.2 h0)]
    cases h2 : (splitN2 path).2 with
    | none =>
      have h1 : (splitN2 path).1 ≠ [] := by
        cases path with
        | nil => simp at h0
        | cons c p =>
          by_cases h : c = 46
          · simp [splitN2, h] at h2
          · simp [splitN2, h]
      simp only [follow, if_neg h1]
      cases look m (splitN2 path).1 <;> rfl
    | some q =>
      have hlt := splitN2_lt path q h2
      obtain ⟨a, b, hab⟩ : ∃ a b, Sel.parts q = a :: b := by
        cases h : Sel.parts q with
        | nil => exact absurd h (hne q)
        | cons a b => exact ⟨a, b, rfl⟩
      simp only [hab, follow]
      cases look m (splitN2 path).1 with
      | none => rfl
      | some v =>
        cases v with
        | map m' => simp only; rw [ih q.length hlt q m' rfl, hab]
        | other x => rfl

/-- "a.b" in {a: {b: 7}}; "a." is the inner map; "a.b.c" goes too deep. -/
example : sel [97, 46, 98] [([97], .map [([98], .other 7)])] = some (Val.other 7) ∧
    sel [97, 46] [([97], .map [([98], .other 7)])] = some (.map [([98], Val.other 7)]) ∧
    sel [97, 46, 98, 46, 99] [([97], .map [([98], .other 7)])] = none := by
  simp [C55_select, Sel.parts, follow, look]

end Verif.Props
