import Verif.Domain.Classify
import Verif.Props.Dltree

/-! # Properties C66 to C68: every outcome of the parsers; exact forms of C25 and C28 -/

namespace Verif.Props
open Verif.Domain Verif.DomainText Verif.DL

/-- C25, exactly: the longest part of the label whose printed form fits 252 bytes is printed; if the next byte is a capital
letter, the call panics instead. -/
theorem C25_exact (s : Bytes) : ∃ k, k ≤ s.length ∧ (printedText (s.take k)).length ≤ 252 ∧
    (k < s.length → 252 < (printedText (s.take (k + 1))).length) ∧
    MakeHumanReadableLabel s = if ∃ c, s[k]? = some c ∧ 65 ≤ c ∧ c ≤ 90 then none else some (printedText (s.take k)) := by
  obtain ⟨k, h1, h2, h3, h4⟩ := human_exact s []
  refine ⟨k, h1, ?_, by simpa using h3, by unfold MakeHumanReadableLabel; simpa using h4⟩
  rcases h2 with rfl | h2
  · simp [printedText]
  · simpa using h2

/-- C25: the inputs that panic are those with a capital letter after a part that is printed in 252 bytes exactly. -/
theorem C25_panics_iff (s : Bytes) : MakeHumanReadableLabel s = none ↔
    ∃ a c b, s = a ++ c :: b ∧ (printedText a).length = 252 ∧ 65 ≤ c ∧ c ≤ 90 := by
  have := human_panics s [] (by simp)
  unfold MakeHumanReadableLabel
  simpa using this

/-- 63 bytes that take four characters each and a capital letter. -/
example : MakeHumanReadableLabel (List.replicate 63 0 ++ [65]) = none ∧
    (MakeHumanReadableLabel (List.replicate 63 0 ++ [97, 65])).map List.length = some 252 ∧
    (MakeHumanReadableLabel (List.replicate 251 97 ++ [46, 65])).map List.length = some 251 := by decide +kernel

example : printedText [97, 66, 46, 92, 0, 255] = [97, 98, 92, 46, 92, 92, 92, 48, 48, 48, 92, 50, 53, 53] := by decide

/-! ## One label -/

/-- C66: the texts `MakeLabel` accepts, with the label each stands for. -/
theorem C66_accepts (s l : Bytes) : MakeLabel s = .ok l ↔ Means s l := by
  constructor
  · intro h
    rcases getLabel_cases s with ⟨toks, dot, h1, h2, h3, h4⟩ | ⟨_, _, _, _, _, _, h4⟩ | ⟨_, _, _, _, _, h4⟩ | ⟨_, _, _, _, _, _, h4⟩
    · unfold MakeLabel at h; rw [h4] at h; cases h; exact ⟨toks, dot, h1, h2, h3, rfl⟩
    all_goals unfold MakeLabel at h; rw [h4] at h; cases h
  · rintro ⟨toks, dot, h1, h2, rfl, rfl⟩
    unfold MakeLabel; rw [getLabel_text h1, if_pos h2]

/-- C66: `MakeLabel` panics exactly if an unescaped dot that is not the last byte comes within the first 64 characters and before any
broken escape. -/
theorem C66_panics (s : Bytes) : MakeLabel s = .panic ↔
    ∃ toks r, (∀ t ∈ toks, Tok.Valid t) ∧ toks.length ≤ 63 ∧ r ≠ [] ∧ s = labelText toks ++ 46 :: r := by
  constructor
  · intro h
    rcases getLabel_cases s with ⟨_, _, _, _, _, h4⟩ | ⟨toks, r, h1, h2, h3, h5, h4⟩ | ⟨_, _, _, _, _, h4⟩ | ⟨_, _, _, _, _, _, h4⟩
    · unfold MakeLabel at h; rw [h4] at h; cases h
    · exact ⟨toks, r, h1, h2, h3, h5⟩
    all_goals unfold MakeLabel at h; rw [h4] at h; cases h
  · rintro ⟨toks, r, h1, h2, h3, rfl⟩
    exact getLabel_dot h1 h2 h3

/-- C66: the error tells what is wrong: more than 63 characters, or a broken escape within the first 64; nothing else is reported. -/
theorem C66_errors (s : Bytes) (e : Domain.Err) : MakeLabel s = .err e ↔
    (e = .labelTooLong ∧ ∃ toks r, (∀ t ∈ toks, Tok.Valid t) ∧ toks.length = 64 ∧ s = labelText toks ++ r) ∨
    (e = .invalidEscape ∧ ∃ toks r, (∀ t ∈ toks, Tok.Valid t) ∧ toks.length ≤ 63 ∧ BrokenEscape r ∧ s = labelText toks ++ r) := by
  constructor
  · intro h
    rcases getLabel_cases s with ⟨_, _, _, _, _, h4⟩ | ⟨_, _, _, _, _, _, h4⟩ | ⟨toks, r, h1, h2, h3, h4⟩ | ⟨toks, r, h1, h2, h3, h5, h4⟩
    · unfold MakeLabel at h; rw [h4] at h; cases h
    · unfold MakeLabel at h; rw [h4] at h; cases h
    · unfold MakeLabel at h; rw [h4] at h; cases h; exact .inl ⟨rfl, toks, r, h1, h2, h3⟩
    · unfold MakeLabel at h; rw [h4] at h; cases h; exact .inr ⟨rfl, toks, r, h1, h2, h3, h5⟩
  · rintro (⟨rfl, toks, r, h1, h2, rfl⟩ | ⟨rfl, toks, r, h1, h2, h3, rfl⟩)
    · exact getLabel_long h1 h2 r
    · exact getLabel_broken h1 h2 h3

/-- A broken escape: `\25x`, and `\256`. -/
example : BrokenEscape [92, 50, 53, 120] ∧ BrokenEscape [92, 50, 53, 54] := by
  constructor
  · refine ⟨⟨_, rfl⟩, ?_⟩
    rintro (c | c | ⟨a, b, c⟩) hv ⟨r, hr⟩ <;> simp only [Tok.text, List.cons_append, List.nil_append, List.cons.injEq] at hr
    · exact hv.2 hr.1
    · exact hv (by rw [hr.2.1]; decide)
    · exact absurd hv.2.2.1 (by rw [hr.2.2.2.1]; decide)
  · refine ⟨⟨_, rfl⟩, ?_⟩
    rintro (c | c | ⟨a, b, c⟩) hv ⟨r, hr⟩ <;> simp only [Tok.text, List.cons_append, List.nil_append, List.cons.injEq] at hr
    · exact hv.2 hr.1
    · exact hv (by rw [hr.2.1]; decide)
    · exact absurd hv.2.2.2 (by rw [hr.2.1, hr.2.2.1, hr.2.2.2.1]; decide)

example : MakeLabel [97, 46, 98] = .panic ∧ MakeLabel [97, 46] = .ok [65] ∧ MakeLabel (List.replicate 64 97) = .err .labelTooLong ∧
    MakeLabel (List.replicate 64 97 ++ [46, 98]) = .err .labelTooLong ∧ MakeLabel [97, 92, 50, 53, 120] = .err .invalidEscape := by decide +kernel

/-! ## Whole names -/

/-- What is wrong with a text that is not a domain name.  Labels are counted from the start; the limits on lengths are checked from
the last label on. -/
inductive Defect : Domain.Err → Bytes → Prop where
  /-- a dot at the start (unless it is all there is) or after a dot -/
  | empty {ls : List (List Tok)} {r : Bytes} : Valids ls → ls.length ≤ 127 → nameText ls true ++ 46 :: r ≠ [46] →
      Defect .emptyLabel (nameText ls true ++ 46 :: r)
  /-- the 128th label ends at the end of the text -/
  | many {ls : List (List Tok)} : Valids ls → ls.length = 128 → Defect .tooManyLabels (nameText ls false)
  /-- the 128th label ends at a dot -/
  | more {ls : List (List Tok)} {r : Bytes} : Valids ls → ls.length = 128 → Defect .tooManyLabels (nameText ls true ++ r)
  /-- a broken escape in one of the first 128 labels -/
  | escape {ls : List (List Tok)} {l : List Tok} {r : Bytes} : Valids ls → ls.length ≤ 127 → (∀ t ∈ l, t.Valid) → BrokenEscape r →
      Defect .invalidEscape (nameText ls true ++ (labelText l ++ r))
  /-- a label of more than 63 characters, with those after it in order -/
  | long {a b : List (List Tok)} {l : List Tok} {tr : Bool} : Valids (a ++ l :: b) → (a ++ l :: b).length ≤ 127 → 63 < l.length → WithinLimits b →
      Defect .labelTooLong (nameText (a ++ l :: b) tr)
  /-- more than 255 in all -/
  | total {a b : List (List Tok)} {l : List Tok} {tr : Bool} : Valids (a ++ l :: b) → (a ++ l :: b).length ≤ 127 → l.length ≤ 63 → WithinLimits b →
      255 < ((l :: b).map fun l => l.length + 1).sum → Defect .nameTooLong (nameText (a ++ l :: b) tr)

/-- Texts with a defect are neither empty nor the dot, and marking the labels is the first thing done. -/
theorem make_of {s : Bytes} (h0 : s ≠ []) (h1 : s ≠ [46]) {e : Domain.Err} (h : markLoop 127 .regular 0 0 [] s = .err e) : MakeNameFromString s = .err e := by
  unfold MakeNameFromString markLabels MaxLabels MaxName
  rw [if_neg (by cases s <;> simp_all), if_neg h1, h]

theorem make_of_marked {s : Bytes} (h0 : s ≠ []) (h1 : s ≠ [46]) {offs : List Nat} {e : Domain.Err} (h : markLoop 127 .regular 0 0 [] s = .ok offs)
    (h2 : nameLoop s offs.reverse s.length [] = .err e) : MakeNameFromString s = .err e := by
  unfold MakeNameFromString markLabels MaxLabels MaxName
  rw [if_neg (by cases s <;> simp_all), if_neg h1, h]
  simp only [h2]

theorem make_limits {a b : List (List Tok)} {l : List Tok} {tr : Bool} (hv : Valids (a ++ l :: b)) (hn : (a ++ l :: b).length ≤ 127)
    (hb : fits b.reverse 0) : (63 < l.length → MakeNameFromString (nameText (a ++ l :: b) tr) = .err .labelTooLong) ∧
      (l.length ≤ 63 → 255 < ((l :: b).map fun l => l.length + 1).sum → MakeNameFromString (nameText (a ++ l :: b) tr) = .err .nameTooLong) := by
  obtain ⟨p1, p2⟩ := nameText_length_pos hv (by simp) tr
  have p0 : nameText (a ++ l :: b) tr ≠ [] := by intro h; rw [h] at p1; simp at p1
  have hm := mark_complete hv 127 0 [] tr (by simpa using hn)
  have ea : a ++ l :: b = (a ++ [l]) ++ b := by simp
  obtain ⟨e', name', tr', g1, g2, g3⟩ := nameLoop_tail (s := nameText (a ++ l :: b) tr) (a ++ [l]) b (by rw [← ea]; exact hv) tr
    (nameText (a ++ l :: b) tr).length [] (by rw [← ea]; simp) (by simpa using hb)
  have hl := (hv l (by simp)).2
  obtain ⟨f1, f2⟩ := nameLoop_fail (s := nameText (a ++ l :: b) tr) a l hl tr' e' name' g1
  rw [← ea] at g3
  constructor
  · intro h
    exact make_of_marked p0 p2 hm (by rw [List.nil_append, g3]; exact f1 h)
  · intro h h2
    simp only [List.map_cons, List.sum_cons, List.length_nil, Nat.zero_add] at h2 g2
    exact make_of_marked p0 p2 hm (by rw [List.nil_append, g3]; exact f2 h (by rw [g2]; omega))

theorem nameText_snoc_false (ls : List (List Tok)) (l : List Tok) : nameText (ls ++ [l]) false = nameText ls true ++ labelText l := by
  rw [nameText_snoc]; simp

theorem valids_snoc {ls : List (List Tok)} {l : List Tok} (h : Valids ls) (hl : l ≠ []) (h2 : ∀ t ∈ l, t.Valid) : Valids (ls ++ [l]) := by
  intro x hx
  simp only [List.mem_append, List.mem_singleton] at hx
  rcases hx with hx | rfl
  · exact h x hx
  · exact ⟨hl, h2⟩

theorem nameText_true_append (a b : List (List Tok)) : nameText (a ++ b) true = nameText a true ++ nameText b true := by
  induction a with
  | nil => simp [nameText]
  | cons x a ih => rw [List.cons_append, nameText_true_cons, nameText_true_cons, ih]; simp

/-- C67: `MakeNameFromString` returns an error exactly for the texts with a defect, and the error names it. -/
theorem C67_errors (s : Bytes) (e : Domain.Err) : MakeNameFromString s = .err e ↔ Defect e s := by
  constructor
  · intro h
    have h0 : s ≠ [] := by rintro rfl; simp [MakeNameFromString] at h
    have h1 : s ≠ [46] := by rintro rfl; simp [MakeNameFromString] at h
    have det : ∀ e', MakeNameFromString s = .err e' → e = e' := by intro e' h'; rw [h] at h'; exact (Domain.Res.err.inj h')
    obtain ⟨ls, l, r, hv, hl, hs, hr⟩ := scan_name _ s (Nat.le_refl _)
    have hm := mark_labels hv 127 0 [] (labelText l ++ r)
    rw [← hs] at hm
    by_cases hn : ls.length ≤ 127
    · rw [if_pos (by simp; exact .inl hn), mark_toks hl] at hm
      simp only [List.nil_append, Nat.zero_add] at hm
      -- a list of labels within the count
      have labels : ∀ ls tr, Valids ls → ls.length ≤ 127 → s = nameText ls tr → Defect e s := by
        intro ls tr hv hn hs
        by_cases hf : fits ls.reverse 0
        · rw [hs, make_complete hv tr ((fits_limits hv).1 hf)] at h; cases h
        · obtain ⟨b, l, a, e1, f, g⟩ := not_fits _ _ hf
          have e2 : ls = a.reverse ++ l :: b.reverse := by
            have := congrArg List.reverse e1; simpa using this
          subst e2
          have hb : WithinLimits b.reverse := (fits_limits (fun x hx => hv x (by simp at hx ⊢; exact .inr (.inr hx)))).1 (by simpa using f)
          have ml := make_limits (tr := tr) hv hn (by simpa using f)
          rcases g with g | ⟨g1, g2⟩
          · rw [det _ (by rw [hs]; exact ml.1 g), hs]
            exact .long hv hn g hb
          · have g2' : 255 < ((l :: b.reverse).map fun l => l.length + 1).sum := by
              simp only [List.map_cons, List.sum_cons, List.map_reverse, List.sum_reverse]; omega
            rw [det _ (by rw [hs]; exact ml.2 g1 g2'), hs]
            exact .total hv hn g1 hb g2'
      rcases hr with rfl | ⟨rfl, r', rfl⟩ | hr
      · by_cases hl0 : l = []
        · subst hl0
          exact labels ls true hv hn (by simpa using hs)
        · by_cases h127 : ls.length = 127
          · have : ¬ ls.length < 127 := by omega
            have hpos := labelText_pos hl0
            have hlt : (nameText ls true).length < (nameText ls true).length + (labelText l).length := by omega
            have : Domain.markLoop 127 .regular 0 0 [] s = .err .tooManyLabels := by
              rw [hm]; simp only [markLoop, hlt, if_true, offsets_length]; rw [if_pos (by omega)]
            rw [det _ (make_of h0 h1 this), hs, List.append_nil, ← nameText_snoc_false]
            exact .many (valids_snoc hv hl0 hl) (by simp [h127])
          · exact labels (ls ++ [l]) false (valids_snoc hv hl0 hl) (by simp; omega) (by rw [hs, nameText_snoc_false]; simp)
      · have : Domain.markLoop 127 .regular 0 0 [] s = .err .emptyLabel := by
          rw [hm]; simp [markLoop]
        rw [det _ (make_of h0 h1 this)]
        rw [hs] at h1 ⊢
        simp only [labelText_nil, List.nil_append] at h1 ⊢
        exact .empty hv hn h1
      · have : Domain.markLoop 127 .regular 0 0 [] s = .err .invalidEscape := by
          rw [hm, broken_mark hr]
        rw [det _ (make_of h0 h1 this), hs]
        exact .escape hv hn hl hr
    · rw [if_neg] at hm
      · rw [det _ (make_of h0 h1 hm), hs]
        have : nameText ls true ++ (labelText l ++ r) = nameText (ls.take 128) true ++ (nameText (ls.drop 128) true ++ (labelText l ++ r)) := by
          rw [← List.append_assoc (nameText (ls.take 128) true), ← nameText_true_append, List.take_append_drop]
        rw [this]
        exact .more (fun x hx => hv x (List.mem_of_mem_take hx)) (by simp; omega)
      · rintro (h | h)
        · simp at h; omega
        · subst h; simp at hn
  · intro h
    cases h with
    | @empty ls r hv hn hne =>
      refine make_of (by simp) hne ?_
      rw [mark_labels hv, if_pos (by simp; exact .inl hn)]; simp [markLoop]
    | @many ls hv hn =>
      obtain ⟨p1, p2⟩ := nameText_length_pos hv (by rintro rfl; simp at hn) false
      refine make_of (by intro h; rw [h] at p1; simp at p1) p2 ?_
      have hne : ls ≠ [] := by rintro rfl; simp at hn
      obtain ⟨a, l, rfl⟩ : ∃ a l, ls = a ++ [l] := ⟨ls.dropLast, ls.getLast hne, (List.dropLast_concat_getLast hne).symm⟩
      simp only [List.length_append, List.length_cons, List.length_nil] at hn
      have hl := hv l (by simp)
      have hpos := labelText_pos hl.1
      rw [nameText_snoc_false, mark_labels (fun x hx => hv x (by simp [hx])), if_pos (by left; simp; omega)]
      have := mark_toks hl.2 127 (0 + (nameText a true).length) (0 + (nameText a true).length) ([] ++ offsets 0 a) []
      rw [List.append_nil] at this
      rw [this]
      have hlt : 0 + (nameText a true).length < 0 + (nameText a true).length + (labelText l).length := by omega
      simp only [markLoop, hlt, if_true, List.nil_append, offsets_length]; rw [if_pos (by omega)]
    | @more ls r hv hn =>
      have hne : ls ≠ [] := by rintro rfl; simp at hn
      obtain ⟨p1, p2⟩ := nameText_length_pos hv hne true
      refine make_of ?_ ?_ ?_
      · intro h; have := congrArg List.length h; simp only [List.length_append, List.length_nil] at this; omega
      · intro h
        have h2 := congrArg List.length h
        simp only [List.length_append, List.length_cons, List.length_nil] at h2
        have : r = [] := List.eq_nil_of_length_eq_zero (by have := p1; omega)
        subst this; simp at h; exact p2 h
      · rw [mark_labels hv, if_neg]
        rintro (h | h)
        · simp at h; omega
        · exact hne h
    | @escape ls l r hv hn hl hr =>
      obtain ⟨⟨r', hr'⟩, _⟩ := id hr
      refine make_of ?_ ?_ ?_
      · intro h; have := congrArg List.length h; simp [hr'] at this
      · intro h
        have h2 := congrArg List.length h
        simp only [List.length_append, hr', List.length_cons, List.length_nil] at h2
        have e1 : nameText ls true = [] := List.eq_nil_of_length_eq_zero (by omega)
        have e2 : labelText l = [] := List.eq_nil_of_length_eq_zero (by omega)
        rw [e1, e2, hr'] at h
        exact absurd (List.cons.inj h).1 (by decide)
      · rw [mark_labels hv, if_pos (by simp; exact .inl hn), mark_toks hl, broken_mark hr]
    | @long a b l tr hv hn h63 hb =>
      exact (make_limits hv hn ((fits_limits (fun x hx => hv x (by simp [hx]))).2 hb)).1 h63
    | @total a b l tr hv hn h63 hb h255 =>
      exact (make_limits hv hn ((fits_limits (fun x hx => hv x (by simp [hx]))).2 hb)).2 h63 h255

/-- C67: so no text has two kinds of defect. -/
theorem C67_one_defect {s : Bytes} {e1 e2 : Domain.Err} (h1 : Defect e1 s) (h2 : Defect e2 s) : e1 = e2 := by
  rw [← C67_errors] at h1 h2
  rw [h1] at h2; exact Domain.Res.err.inj h2

/-- `a..b`, 128 labels, `a.\\9`, a label of 64 letters followed by a good one, and five labels of 63 letters. -/
example : Defect .emptyLabel [97, 46, 46, 98] ∧ Defect .tooManyLabels (nameText (List.replicate 128 [.plain 97]) false) ∧
    Defect .invalidEscape [97, 46, 92, 57] ∧ Defect .labelTooLong (nameText [List.replicate 64 (.plain 97), [.plain 98]] true) ∧
    Defect .nameTooLong (nameText (List.replicate 5 (List.replicate 63 (.plain 97))) false) := by
  simp only [← C67_errors]
  refine ⟨by decide, by decide +kernel, by decide, by decide +kernel, by decide +kernel⟩

/-! ## Names from reflected values -/

/-- The value itself or what it points to. -/
inductive Wraps : RVal → RVal → Prop where
  | itself {v : RVal} : Wraps v v
  | pointed {v : RVal} : Wraps (.ptr v) v

/-- C68: a `Name`, or a pointer to one, is given back. -/
theorem C68_name {v : RVal} {n : Name} (h : Wraps v (.name n)) : MakeNameFromReflection v = some n := by
  cases h <;> rfl

/-- C68: a string, or a pointer to one, is parsed; a defective one panics. -/
theorem C68_string {v : RVal} {s : Bytes} (h : Wraps v (.str s)) :
    (∀ n, MakeNameFromReflection v = some n ↔ MakeNameFromString s = .ok n) ∧
    (MakeNameFromReflection v = none ↔ ∃ e, Defect e s) := by
  have e : MakeNameFromReflection v = match MakeNameFromString s with | .ok n => some n | _ => none := by cases h <;> rfl
  rw [e]
  cases hm : MakeNameFromString s with
  | ok n =>
    refine ⟨by simp, ?_⟩
    simp only [reduceCtorEq, false_iff, not_exists]
    intro e hd; rw [← C67_errors, hm] at hd; cases hd
  | err e => exact ⟨by simp, by simp only [true_iff]; exact ⟨e, (C67_errors s e).1 hm⟩⟩
  | panic => exact absurd hm (make_no_panic s)

/-- C68: everything else panics: other types, nil pointers, pointers to pointers, and the zero Value. -/
theorem C68_others {v : RVal} (h1 : ∀ n, ¬ Wraps v (.name n)) (h2 : ∀ s, ¬ Wraps v (.str s)) : MakeNameFromReflection v = none := by
  cases v with
  | zero => rfl
  | str s => exact absurd .itself (h2 s)
  | name n => exact absurd .itself (h1 n)
  | nilPtr => rfl
  | other => rfl
  | ptr w =>
    cases w with
    | str s => exact absurd .pointed (h2 s)
    | name n => exact absurd .pointed (h1 n)
    | _ => rfl

example : (MakeNameFromReflection (.ptr (.str [97, 46, 98]))).map (·.c) = some [1, 66, 1, 65] ∧
    MakeNameFromReflection (.str [97, 46, 46]) = none ∧ MakeNameFromReflection (.ptr (.ptr (.str [97]))) = none := by
  refine ⟨by decide +kernel, by decide +kernel, rfl⟩

/-! ## dltree with any keys -/

section
variable {V : Type} [Inhabited V]

/-- The text is refused: too long, or with a broken escape. -/
def Malformed (s : Bytes) : Prop :=
  (∃ toks r, (∀ t ∈ toks, Tok.Valid t) ∧ toks.length = 64 ∧ s = labelText toks ++ r) ∨
  ∃ toks r, (∀ t ∈ toks, Tok.Valid t) ∧ toks.length ≤ 63 ∧ BrokenEscape r ∧ s = labelText toks ++ r

/-- A dot that is not the last byte. -/
def InnerDot (s : Bytes) : Prop := ∃ toks r, (∀ t ∈ toks, Tok.Valid t) ∧ toks.length ≤ 63 ∧ r ≠ [] ∧ s = labelText toks ++ 46 :: r

/-- The label under which the tree files a text: the one it means, the empty one if it is malformed. -/
def FiledUnder (s l : Bytes) : Prop := Means s l ∨ Malformed s ∧ l = []

theorem labelOf_filed {s l : Bytes} : DL.labelOf s = some l ↔ FiledUnder s l := by
  unfold DL.labelOf FiledUnder
  rw [← C66_accepts]
  have herr : Malformed s ↔ ∃ e, MakeLabel s = .err e := by
    constructor
    · rintro (h | h)
      · exact ⟨_, (C66_errors s _).2 (.inl ⟨rfl, h⟩)⟩
      · exact ⟨_, (C66_errors s _).2 (.inr ⟨rfl, h⟩)⟩
    · rintro ⟨e, h⟩
      rcases (C66_errors s e).1 h with ⟨_, h⟩ | ⟨_, h⟩
      · exact .inl h
      · exact .inr h
  rw [herr]
  cases h : MakeLabel s with
  | ok dl => simp
  | err e => simp [eq_comm]
  | panic => simp

theorem labelOf_dot {s : Bytes} : DL.labelOf s = none ↔ InnerDot s := by
  have := C66_panics s
  unfold InnerDot
  rw [← this]
  unfold DL.labelOf
  cases MakeLabel s <;> simp

/-- Every text is filed under one label or has an inner dot, not both. -/
theorem C28_trichotomy (s : Bytes) : (InnerDot s ∧ ∀ l, ¬ FiledUnder s l) ∨ (¬ InnerDot s ∧ ∃ l, FiledUnder s l ∧ ∀ l', FiledUnder s l' → l' = l) := by
  rw [← labelOf_dot]
  simp only [← labelOf_filed]
  cases h : DL.labelOf s with
  | none => simp
  | some l => simp [eq_comm]

/-- The key of a call is text with an inner dot. -/
def DotKey : DL.Op V → Prop
  | .insert s _ => InnerDot s
  | .delete s => InnerDot s
  | _ => False

/-- What a call does, whatever its key. -/
inductive OpFiled : DL.Op V → KOp Bytes V → Prop where
  | insert {s l : Bytes} {v : V} (h : FiledUnder s l) : OpFiled (.insert s v) (.insert l v)
  | delete {s l : Bytes} (h : FiledUnder s l) : OpFiled (.delete s) (.delete l)
  | rawInsert {l : Bytes} {v : V} : OpFiled (.rawInsert l v) (.insert l v)
  | rawDelete {l : Bytes} : OpFiled (.rawDelete l) (.delete l)

/-- The same for a list of calls. -/
inductive AllFiled : List (DL.Op V) → List (KOp Bytes V) → Prop where
  | nil : AllFiled [] []
  | cons {op : DL.Op V} {k : KOp Bytes V} {ops : List (DL.Op V)} {ks : List (KOp Bytes V)} : OpFiled op k → AllFiled ops ks → AllFiled (op :: ops) (k :: ks)

omit [Inhabited V] in
theorem abs_filed {op : DL.Op V} {k : KOp Bytes V} : op.abs = some k ↔ OpFiled op k := by
  constructor
  · intro h
    cases op with
    | insert s v =>
      simp only [DL.Op.abs, Option.map_eq_some_iff] at h
      obtain ⟨l, h1, rfl⟩ := h
      exact .insert (labelOf_filed.1 h1)
    | delete s =>
      simp only [DL.Op.abs, Option.map_eq_some_iff] at h
      obtain ⟨l, h1, rfl⟩ := h
      exact .delete (labelOf_filed.1 h1)
    | rawInsert l v => cases h; exact .rawInsert
    | rawDelete l => cases h; exact .rawDelete
  · intro h
    cases h with
    | insert h => simp [DL.Op.abs, labelOf_filed.2 h]
    | delete h => simp [DL.Op.abs, labelOf_filed.2 h]
    | rawInsert => rfl
    | rawDelete => rfl

omit [Inhabited V] in
theorem abs_dot {op : DL.Op V} : op.abs = none ↔ DotKey op := by
  cases op with
  | insert s v => simp [DL.Op.abs, DotKey, labelOf_dot]
  | delete s => simp [DL.Op.abs, DotKey, labelOf_dot]
  | rawInsert l v => simp [DL.Op.abs, DotKey]
  | rawDelete l => simp [DL.Op.abs, DotKey]

/-- C28, exactly: a history with any keys panics if and only if one of them has an inner dot; if none has, the tree holds what the
calls did to the labels their keys are filed under. -/
theorem C28_exact (ops : List (DL.Op V)) :
    ((∃ op ∈ ops, DotKey op) ∧ DL.run DL.NewTree ops = none) ∨
    ((∀ op ∈ ops, ¬ DotKey op) ∧ ∃ t, ∃ ks : List (KOp Bytes V), AllFiled ops ks ∧ DL.run DL.NewTree ops = some t ∧ (t : Option (DL.Tree V)) ≠ none ∧
      (∀ l, RawGet t l = lastWrite' ks l) ∧
      (∀ s l, FiledUnder s l → DL.Get t s = some (lastWrite' ks l)) ∧ ∀ s, InnerDot s → DL.Get t s = none) := by
  induction ops with
  | nil =>
    right
    refine ⟨by simp, DL.NewTree, [], .nil, rfl, by simp [DL.NewTree], fun l => rfl, ?_, ?_⟩
    · intro s l h; simp only [DL.Get, DL.NewTree, labelOf_filed.2 h]; rfl
    · intro s h; simp only [DL.Get, DL.NewTree, labelOf_dot.2 h]; rfl
  | cons op ops ih =>
    rcases ih with ⟨⟨o, ho, hd⟩, h⟩ | ⟨h1, t, ks, h2, h3, h4, h5, h6⟩
    · exact .inl ⟨⟨o, by simp [ho], hd⟩, by simp [DL.run, h]⟩
    · obtain ⟨tt, rfl⟩ := Option.ne_none_iff_exists'.1 h4
      cases ha : op.abs with
      | none =>
        left
        refine ⟨⟨op, by simp, abs_dot.1 ha⟩, ?_⟩
        simp only [DL.run, h3, Option.bind_some]
        cases op with
        | insert s v =>
          simp only [DL.Op.abs, Option.map_eq_none_iff] at ha
          simp [DL.step, DL.Insert, ha]
        | delete s =>
          simp only [DL.Op.abs, Option.map_eq_none_iff] at ha
          simp [DL.step, DL.Delete, ha]
        | rawInsert l v => simp [DL.Op.abs] at ha
        | rawDelete l => simp [DL.Op.abs] at ha
      | some k =>
        right
        have hk : AllFiled (op :: ops) (k :: ks) := .cons (abs_filed.1 ha) h2
        have habs : ∀ (ops : List (DL.Op V)) ks, AllFiled ops ks → absOps ops = some ks := by
          intro ops ks h
          induction h with
          | nil => rfl
          | cons h _ ih => simp [absOps, abs_filed.2 h, ih]
        obtain ⟨t', r, g1, g2, g3, _⟩ := DL.run_like (t0 := DL.NewTree) rfl _ (habs _ _ hk)
        have key : ∀ l, RawGet t' l = lastWrite' (k :: ks) l := by
          intro l; rw [rawGet_eq, g3, RB.get_run cmpLabel_lawful g2, lastWriteBy_label]
        have hne : t' ≠ none := by
          rintro rfl
          simp only [DL.run, h3, Option.bind_some] at g1
          cases op with
          | insert s v =>
            simp only [DL.step, DL.Insert, DL.RawInsert, Option.bind_eq_some_iff, Option.map_eq_some_iff] at g1
            obtain ⟨_, _, _, _, g⟩ := g1; cases g
          | delete s =>
            simp only [DL.step, DL.Delete, Option.map_eq_some_iff] at g1
            obtain ⟨_, ⟨_, _, rfl⟩, g⟩ := g1; cases g
          | rawInsert l v =>
            simp only [DL.step, DL.RawInsert, Option.map_eq_some_iff] at g1
            obtain ⟨_, _, g⟩ := g1; cases g
          | rawDelete l => simp [DL.step, DL.RawDelete] at g1
        refine ⟨?_, t', k :: ks, hk, g1, hne, key, ?_, ?_⟩
        · intro o ho
          simp only [List.mem_cons] at ho
          rcases ho with rfl | ho
          · rw [← abs_dot, ha]; simp
          · exact h1 o ho
        · intro s l h
          rw [get_eq (labelOf_filed.2 h), key]
        · intro s h
          obtain ⟨tt', rfl⟩ := Option.ne_none_iff_exists'.1 hne
          simp only [DL.Get, labelOf_dot.2 h]; rfl

/-- A malformed key, a key filed under the empty label as well, and an ordinary one. -/
example : (DL.run (V := Nat) DL.NewTree [.insert [97] 3, .insert [92, 57] 2, .insert [] 1]).map
    (fun t => (RawGet t [], RawGet t [65], DL.Get t [92], DL.Get t [97, 46, 98])) = some (some 2, some 3, some (some 2), none) := by decide +kernel

example : InnerDot [97, 46, 98] ∧ Malformed [92, 57] := by
  refine ⟨⟨[.plain 97], [98], by decide, by decide, by decide, by decide⟩, ?_⟩
  have : FiledUnder [92, 57] [] := labelOf_filed.1 (by decide)
  rcases this with h | ⟨h, _⟩
  · rw [← C66_accepts] at h; exact absurd h (by decide)
  · exact h

end

end Verif.Props
