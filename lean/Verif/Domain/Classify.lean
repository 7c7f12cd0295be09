import Verif.Domain.Labels

/-! # Every outcome of the parser and of the printer -/

namespace Verif.Domain
open Verif.DomainText

/-! ## Printing -/

theorem printed_eq : ∀ c, printed c = (tokOf c).text := forall_u8 (by decide +kernel)

theorem printedText_eq (s : Bytes) : printedText s = labelText (s.map tokOf) := by
  induction s with
  | nil => rfl
  | cons c s ih => simp only [printedText, List.flatMap_cons, List.map_cons, labelText_cons] at *; rw [ih, printed_eq]

theorem printedText_append (a b : Bytes) : printedText (a ++ b) = printedText a ++ printedText b := by simp [printedText]

/-- One byte: it is printed if that fits, otherwise the output ends here, unless the byte is a capital letter. -/
theorem human_step (c : UInt8) (s out : Bytes) : humanLoop out (c :: s) =
    if out.length + (printed c).length ≤ 252 then humanLoop (out ++ printed c) s
    else if 65 ≤ c ∧ c ≤ 90 then none else some out := by
  have up : ∀ c : UInt8, 65 ≤ c ∧ c ≤ 90 → ¬ ((c = 46 || c = 92) = true) ∧ ¬ ((c < 33 || 126 < c) = true) :=
    forall_u8 (by decide +kernel)
  rw [printed_eq]
  by_cases h1 : (c = 46 || c = 92) = true
  · have nu : ¬ (65 ≤ c ∧ c ≤ 90) := fun h => (up c h).1 h1
    rw [if_neg nu]
    simp only [humanLoop, tokOf, h1, if_true, Tok.text]
    by_cases hf : out.length + 2 ≤ 252
    · rw [if_pos (c := _ ≤ 252) (by simpa using hf), if_neg (by unfold MaxLabel; omega)]
    · rw [if_neg (c := _ ≤ 252) (by simpa using hf), if_pos (by unfold MaxLabel; omega)]
  · by_cases h2 : (c < 33 || 126 < c) = true
    · have nu : ¬ (65 ≤ c ∧ c ≤ 90) := fun h => (up c h).2 h2
      rw [if_neg nu]
      simp only [humanLoop, tokOf, h1, h2, if_true, Bool.false_eq_true, if_false, Tok.text]
      by_cases hf : out.length + 4 ≤ 252
      · rw [if_pos (c := _ ≤ 252) (by simpa using hf), if_neg (by unfold MaxLabel; omega)]
      · rw [if_neg (c := _ ≤ 252) (by simpa using hf), if_pos (by unfold MaxLabel; omega)]
    · by_cases h3 : 65 ≤ c ∧ c ≤ 90
      · have h3' : (65 ≤ c && c ≤ 90) = true := by simpa using h3
        rw [if_pos h3]
        simp only [humanLoop, tokOf, h1, h2, h3', if_true, Bool.false_eq_true, if_false, Tok.text]
        by_cases hf : out.length + 1 ≤ 252
        · rw [if_pos (c := _ ≤ 252) (by simpa using hf), if_neg (by unfold MaxLabel; omega)]
        · rw [if_neg (c := _ ≤ 252) (by simpa using hf), if_pos (by unfold MaxLabel; omega)]
      · have h3' : (65 ≤ c && c ≤ 90) = false := by
          rw [← Bool.not_eq_true]; simpa using h3
        rw [if_neg h3]
        simp only [humanLoop, tokOf, h1, h2, h3', Bool.false_eq_true, if_false, Tok.text]
        by_cases hf : out.length + 1 ≤ 252
        · rw [if_pos (c := _ ≤ 252) (by simpa using hf), if_neg (by unfold MaxLabel; omega)]
        · rw [if_neg (c := _ ≤ 252) (by simpa using hf), if_pos (by unfold MaxLabel; omega)]

theorem human_exact (s out : Bytes) : ∃ k, k ≤ s.length ∧ (k = 0 ∨ out.length + (printedText (s.take k)).length ≤ 252) ∧
    (k < s.length → 252 < out.length + (printedText (s.take (k + 1))).length) ∧
    humanLoop out s = if ∃ c, s[k]? = some c ∧ 65 ≤ c ∧ c ≤ 90 then none else some (out ++ printedText (s.take k)) := by
  induction s generalizing out with
  | nil => exact ⟨0, by simp, .inl rfl, by simp, by simp [humanLoop, printedText]⟩
  | cons c s ih =>
    rw [human_step]
    by_cases h : out.length + (printed c).length ≤ 252
    · rw [if_pos h]
      obtain ⟨k, h1, h2, h3, h4⟩ := ih (out ++ printed c)
      refine ⟨k + 1, by simpa using h1, .inr ?_, ?_, ?_⟩
      · rcases h2 with rfl | h2
        · simpa [printedText] using h
        · simpa [printedText, Nat.add_assoc] using h2
      · intro hk
        simpa [printedText, Nat.add_assoc] using h3 (by simpa using hk)
      · rw [h4]; simp [printedText]
    · rw [if_neg h]
      refine ⟨0, by simp, .inl rfl, fun _ => ?_, ?_⟩
      · simpa [printedText] using Nat.lt_of_not_le h
      · simp [printedText]

theorem printed_pos (c : UInt8) : 0 < (printed c).length := by rw [printed_eq]; exact Tok.text_pos _

theorem printed_upper : ∀ c : UInt8, 65 ≤ c ∧ c ≤ 90 → (printed c).length = 1 := forall_u8 (by decide +kernel)

theorem human_panics (s out : Bytes) (ho : out.length ≤ 252) : humanLoop out s = none ↔
    ∃ a c b, s = a ++ c :: b ∧ out.length + (printedText a).length = 252 ∧ 65 ≤ c ∧ c ≤ 90 := by
  induction s generalizing out with
  | nil => simp [humanLoop]
  | cons c s ih =>
    rw [human_step]
    by_cases h : out.length + (printed c).length ≤ 252
    · rw [if_pos h, ih _ (by simpa using h)]
      constructor
      · rintro ⟨a, c', b, rfl, h1, h2⟩
        exact ⟨c :: a, c', b, rfl, by simp [printedText, Nat.add_assoc] at h1 ⊢; exact h1, h2⟩
      · rintro ⟨a, c', b, h0, h1, h2⟩
        cases a with
        | nil =>
          have := printed_pos c
          simp [printedText] at h1; omega
        | cons x a =>
          simp only [List.cons_append, List.cons.injEq] at h0
          obtain ⟨rfl, rfl⟩ := h0
          exact ⟨a, c', b, rfl, by simp [printedText, Nat.add_assoc] at h1 ⊢; exact h1, h2⟩
    · rw [if_neg h]
      constructor
      · intro hx
        split at hx
        · rename_i hu
          have := printed_upper c hu
          exact ⟨[], c, s, rfl, by simp [printedText]; omega, hu⟩
        · cases hx
      · rintro ⟨a, c', b, h0, h1, h2⟩
        cases a with
        | nil =>
          simp only [List.nil_append, List.cons.injEq] at h0
          obtain ⟨rfl, rfl⟩ := h0
          rw [if_pos h2]
        | cons x a =>
          simp only [List.cons_append, List.cons.injEq] at h0
          obtain ⟨rfl, rfl⟩ := h0
          exfalso; simp [printedText] at h1; omega

/-! ## Scanning -/

/-- What follows the longest readable piece of a label. -/
def Rest (s : Bytes) : Prop := s = [] ∨ (∃ r, s = 46 :: r) ∨ BrokenEscape s

theorem scan_label : ∀ (n : Nat) (s : Bytes), s.length ≤ n → ∃ (l : List Tok) (r : Bytes), (∀ t ∈ l, t.Valid) ∧ s = labelText l ++ r ∧ Rest r := by
  intro n
  induction n with
  | zero =>
    intro s hs
    have : s = [] := by cases s <;> simp_all
    exact ⟨[], [], by simp, by simp [this], .inl rfl⟩
  | succ n ih =>
    intro s hs
    by_cases h : ∃ t rest, Tok.Valid t ∧ s = t.text ++ rest
    · obtain ⟨t, rest, ht, rfl⟩ := h
      have := Tok.text_pos t
      simp only [List.length_append] at hs
      obtain ⟨l, r, h1, rfl, h2⟩ := ih rest (by omega)
      refine ⟨t :: l, r, ?_, by simp, h2⟩
      intro x hx; simp at hx; rcases hx with rfl | hx
      · exact ht
      · exact h1 x hx
    · refine ⟨[], s, by simp, by simp, ?_⟩
      rcases head_cases_escape s with h1 | h1 | h1 | ⟨h1, _⟩
      · exact .inl h1
      · exact .inr (.inl h1)
      · exact absurd h1 h
      · exact .inr (.inr ⟨h1, fun t ht ⟨r, hr⟩ => h ⟨t, r, ht, hr.symm⟩⟩)

theorem broken_get {s : Bytes} (h : BrokenEscape s) (out : Bytes) : getLoop .regular out s = .err .invalidEscape := by
  rcases head_cases_escape s with rfl | ⟨r, rfl⟩ | ⟨t, r, ht, rfl⟩ | ⟨_, _, h1⟩
  · obtain ⟨⟨_, h⟩, _⟩ := h; cases h
  · obtain ⟨⟨_, h⟩, _⟩ := h; exact absurd (List.cons.inj h).1 (by decide)
  · exact absurd ⟨r, rfl⟩ (h.2 t ht)
  · exact h1 out

theorem broken_mark {s : Bytes} (h : BrokenEscape s) (cap i start : Nat) (offs : List Nat) :
    markLoop cap .regular i start offs s = .err .invalidEscape := by
  rcases head_cases_escape s with rfl | ⟨r, rfl⟩ | ⟨t, r, ht, rfl⟩ | ⟨_, h1, _⟩
  · obtain ⟨⟨_, h⟩, _⟩ := h; cases h
  · obtain ⟨⟨_, h⟩, _⟩ := h; exact absurd (List.cons.inj h).1 (by decide)
  · exact absurd ⟨r, rfl⟩ (h.2 t ht)
  · exact h1 cap i start offs

/-! ## One label -/

/-- The four outcomes, each with the shape of text that leads to it. -/
theorem getLabel_cases (s : Bytes) :
    (∃ l, ∃ dot : Bool, (∀ t ∈ l, Tok.Valid t) ∧ l.length ≤ 63 ∧ s = labelText l ++ (if dot then [46] else []) ∧ getLabel s = .ok (labelBytes l)) ∨
    (∃ l r, (∀ t ∈ l, Tok.Valid t) ∧ l.length ≤ 63 ∧ r ≠ [] ∧ s = labelText l ++ 46 :: r ∧ getLabel s = .panic) ∨
    (∃ l r, (∀ t ∈ l, Tok.Valid t) ∧ l.length = 64 ∧ s = labelText l ++ r ∧ getLabel s = .err .labelTooLong) ∨
    (∃ l r, (∀ t ∈ l, Tok.Valid t) ∧ l.length ≤ 63 ∧ BrokenEscape r ∧ s = labelText l ++ r ∧ getLabel s = .err .invalidEscape) := by
  obtain ⟨l, r, h1, rfl, h2⟩ := scan_label _ s (Nat.le_refl _)
  by_cases h : l.length ≤ 63
  · have e : getLabel (labelText l ++ r) = getLoop .regular (labelBytes l) r := by
      unfold getLabel; rw [get_toks h1 _ _ (by simpa using h)]; simp
    rcases h2 with rfl | ⟨r', rfl⟩ | h2
    · exact .inl ⟨l, false, h1, h, by simp, by rw [e]; rfl⟩
    · cases r' with
      | nil => exact .inl ⟨l, true, h1, h, by simp, by rw [e]; simp [getLoop]⟩
      | cons a b => exact .inr (.inl ⟨l, a :: b, h1, h, by simp, rfl, by rw [e]; simp [getLoop]⟩)
    · exact .inr (.inr (.inr ⟨l, r, h1, h, h2, rfl, by rw [e, broken_get h2]⟩))
  · refine .inr (.inr (.inl ⟨l.take 64, labelText (l.drop 64) ++ r, fun t ht => h1 t (List.mem_of_mem_take ht), by simp; omega, ?_, ?_⟩))
    · rw [← List.append_assoc]; congr 1
      unfold labelText; rw [← List.flatMap_append, List.take_append_drop]
    · exact get_toks_long h1 [] r (by simp) (by simp; omega)

theorem getLabel_long {l : List Tok} (h1 : ∀ t ∈ l, t.Valid) (h : l.length = 64) (r : Bytes) : getLabel (labelText l ++ r) = .err .labelTooLong :=
  get_toks_long h1 [] r (by simp) (by simp; omega)

theorem getLabel_broken {l : List Tok} (h1 : ∀ t ∈ l, t.Valid) (h : l.length ≤ 63) {r : Bytes} (hr : BrokenEscape r) :
    getLabel (labelText l ++ r) = .err .invalidEscape := by
  unfold getLabel; rw [get_toks h1 _ _ (by simpa using h), broken_get hr]

theorem getLabel_dot {l : List Tok} (h1 : ∀ t ∈ l, t.Valid) (h : l.length ≤ 63) {r : Bytes} (hr : r ≠ []) :
    getLabel (labelText l ++ 46 :: r) = .panic := by
  unfold getLabel; rw [get_toks h1 _ _ (by simpa using h)]
  cases r with
  | nil => exact absurd rfl hr
  | cons a b => simp [getLoop]

/-! ## Whole names -/

theorem nameText_true_cons (l : List Tok) (ls : List (List Tok)) : nameText (l :: ls) true = labelText l ++ 46 :: nameText ls true := by
  cases ls with
  | nil => simp [nameText]
  | cons a b => rfl

theorem mark_labels {ls : List (List Tok)} (hv : Valids ls) (cap i : Nat) (offs : List Nat) (rest : Bytes) :
    markLoop cap .regular i i offs (nameText ls true ++ rest) =
      if offs.length + ls.length ≤ cap ∨ ls = [] then
        markLoop cap .regular (i + (nameText ls true).length) (i + (nameText ls true).length) (offs ++ offsets i ls) rest
      else .err .tooManyLabels := by
  induction ls generalizing i offs with
  | nil => simp [nameText, offsets]
  | cons l ls ih =>
    have hl := hv l (by simp)
    have hpos := labelText_pos hl.1
    rw [nameText_true_cons, List.append_assoc, mark_toks hl.2]
    have : ¬ (i + (labelText l).length ≤ i) := by omega
    simp only [List.cons_append, markLoop, if_true, this, if_false]
    by_cases hc : cap ≤ offs.length
    · rw [if_pos hc, if_neg]
      rintro (h | h)
      · simp at h; omega
      · cases h
    · rw [if_neg hc, ih (fun x hx => hv x (by simp [hx]))]
      simp only [List.length_append, List.length_cons, List.length_nil, offsets, reduceCtorEq, or_false, List.append_assoc, List.cons_append,
        List.nil_append]
      have e1 : i + (labelText l).length + 1 + (nameText ls true).length = i + ((labelText l).length + ((nameText ls true).length + 1)) := by omega
      rw [e1]
      by_cases hn : ls = []
      · subst hn; rw [if_pos (.inr rfl), if_pos (by simp; omega)]
      · have e2 : (offs.length + (0 + 1) + ls.length ≤ cap ∨ ls = []) ↔ offs.length + (ls.length + 1) ≤ cap := by
          constructor
          · rintro (h | h)
            · omega
            · exact absurd h hn
          · intro h; left; omega
        simp only [e2]

/-- Every text is complete labels each ended by a dot, then a piece of a label, then nothing, an ill-placed dot or a broken escape. -/
theorem scan_name : ∀ (n : Nat) (s : Bytes), s.length ≤ n → ∃ ls l r, Valids ls ∧ (∀ t ∈ l, Tok.Valid t) ∧
    s = nameText ls true ++ (labelText l ++ r) ∧ (r = [] ∨ (l = [] ∧ ∃ r', r = 46 :: r') ∨ BrokenEscape r) := by
  intro n
  induction n with
  | zero =>
    intro s hs
    have : s = [] := by cases s <;> simp_all
    exact ⟨[], [], [], by simp [Valids], by simp, by simp [this, nameText], .inl rfl⟩
  | succ n ih =>
    intro s hs
    obtain ⟨l, r, h1, rfl, h2⟩ := scan_label _ s (Nat.le_refl _)
    rcases h2 with rfl | ⟨r', rfl⟩ | h2
    · exact ⟨[], l, [], by simp [Valids], h1, by simp [nameText], .inl rfl⟩
    · by_cases hl : l = []
      · subst hl
        exact ⟨[], [], _, by simp [Valids], by simp, by simp [nameText], .inr (.inl ⟨rfl, r', rfl⟩)⟩
      · simp only [List.length_append, List.length_cons] at hs
        obtain ⟨ls, l', r, h3, h4, rfl, h5⟩ := ih r' (by omega)
        refine ⟨l :: ls, l', r, ?_, h4, ?_, h5⟩
        · intro x hx; simp at hx; rcases hx with rfl | hx
          · exact ⟨hl, h1⟩
          · exact h3 x hx
        · rw [nameText_true_cons]; simp
    · exact ⟨[], l, r, by simp [Valids], h1, by simp [nameText], .inr (.inr h2)⟩

/-- Collecting the labels `b` at the end before those in front. -/
theorem nameLoop_tail {s : Bytes} (a b : List (List Tok)) (hv : Valids (a ++ b)) (tr : Bool) (e : Nat) (name : Bytes)
    (hs : s.take e = nameText (a ++ b) tr) (hf : fits b.reverse name.length) : ∃ e' name' tr', s.take e' = nameText a tr' ∧
      name'.length = name.length + (b.map fun l => l.length + 1).sum ∧
      nameLoop s (offsets 0 (a ++ b)).reverse e name = nameLoop s (offsets 0 a).reverse e' name' := by
  generalize hr : b.reverse = rs at hf
  induction rs generalizing b tr e name with
  | nil =>
    have : b = [] := by simpa using hr
    subst this
    exact ⟨e, name, tr, by simpa using hs, by simp, by simp⟩
  | cons l rs ih =>
    have hb : b = rs.reverse ++ [l] := by
      have := congrArg List.reverse hr; simpa using this
    subst hb
    obtain ⟨f1, f2, f3⟩ := hf
    have hl := hv l (by simp)
    rw [← List.append_assoc] at hs ⊢
    rw [offsets_snoc, List.reverse_append]
    simp only [List.reverse_cons, List.reverse_nil, List.nil_append, List.cons_append, Nat.zero_add]
    rw [nameText_snoc] at hs
    have hsl : slice s (nameText (a ++ rs.reverse) true).length e = labelText l ++ if tr then [46] else [] := by
      unfold slice; rw [hs, List.append_assoc, List.drop_left]
    have htake : s.take (nameText (a ++ rs.reverse) true).length = nameText (a ++ rs.reverse) true := by
      have h1 := congrArg (List.take (nameText (a ++ rs.reverse) true).length) hs
      rw [List.append_assoc, List.take_left, List.take_take] at h1
      have h2 : (nameText (a ++ rs.reverse) true).length ≤ e := by
        have := congrArg List.length hs
        simp only [List.length_take, List.length_append] at this
        omega
      rw [Nat.min_eq_left h2] at h1
      exact h1
    obtain ⟨e', name', tr', g1, g2, g3⟩ := ih rs.reverse (fun x hx => hv x (by simp at hx ⊢; rcases hx with hx | hx <;> simp [hx])) true
      (nameText (a ++ rs.reverse) true).length (name ++ UInt8.ofNat l.length :: labelBytes l) htake (by simp)
      (by simp only [List.length_append, List.length_cons, labelBytes_length]; exact f3)
    refine ⟨e', name', tr', g1, ?_, ?_⟩
    · rw [g2]; simp [labelBytes_length]; omega
    · rw [nameLoop, hsl, getLabel_text hl.2, if_pos f1]
      have : ¬ 255 < name.length + (l.length + 1) := by omega
      simp only [labelBytes_length, MaxName, this, if_false]
      exact g3

/-- The outcome of a step of the loop that fails. -/
theorem nameLoop_fail {s : Bytes} (a : List (List Tok)) (l : List Tok) (hl : ∀ t ∈ l, t.Valid) (tr : Bool) (e : Nat) (name : Bytes)
    (hs : s.take e = nameText (a ++ [l]) tr) :
    (63 < l.length → nameLoop s (offsets 0 (a ++ [l])).reverse e name = .err .labelTooLong) ∧
    (l.length ≤ 63 → 255 < name.length + (l.length + 1) → nameLoop s (offsets 0 (a ++ [l])).reverse e name = .err .nameTooLong) := by
  rw [offsets_snoc, List.reverse_append]
  simp only [List.reverse_cons, List.reverse_nil, List.nil_append, List.cons_append, Nat.zero_add]
  rw [nameText_snoc] at hs
  have hsl : slice s (nameText a true).length e = labelText l ++ if tr then [46] else [] := by
    unfold slice; rw [hs, List.append_assoc, List.drop_left]
  rw [nameLoop, hsl, getLabel_text hl]
  constructor
  · intro h; rw [if_neg (by omega)]
  · intro h h2; rw [if_pos h]; simp only [labelBytes_length, MaxName, h2, if_true]

/-- Where the limits are first exceeded, from the end. -/
theorem not_fits : ∀ (ls : List (List Tok)) (j : Nat), ¬ fits ls j → ∃ b l a, ls = b ++ l :: a ∧ fits b j ∧
    (63 < l.length ∨ l.length ≤ 63 ∧ 255 < j + (b.map fun l => l.length + 1).sum + (l.length + 1)) := by
  intro ls
  induction ls with
  | nil => intro j h; exact absurd trivial h
  | cons l ls ih =>
    intro j h
    by_cases h1 : l.length ≤ 63
    · by_cases h2 : j + (l.length + 1) ≤ 255
      · obtain ⟨b, l', a, e, f, g⟩ := ih _ (fun h3 => h ⟨h1, h2, h3⟩)
        refine ⟨l :: b, l', a, by rw [e]; rfl, ⟨h1, h2, f⟩, ?_⟩
        rcases g with g | ⟨g1, g2⟩
        · exact .inl g
        · right; refine ⟨g1, ?_⟩; simp only [List.map_cons, List.sum_cons]; omega
      · exact ⟨[], l, ls, rfl, trivial, .inr ⟨h1, by simp; omega⟩⟩
    · exact ⟨[], l, ls, rfl, trivial, .inl (by omega)⟩

end Verif.Domain
