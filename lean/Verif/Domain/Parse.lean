import Verif.Domain.Model
import Verif.Spec.DomainText

/-! # The parser accepts exactly the grammar -/

namespace Verif.Domain
open Verif.DomainText

theorem forall_u8 {P : UInt8 → Prop} (h : ∀ n : Fin 256, P (UInt8.ofNat n.val)) : ∀ c, P c := by
  intro c
  have := h ⟨c.toNat, c.toNat_lt⟩
  simpa using this

theorem upper_eq : ∀ c, upper c = toUpper c := forall_u8 (by decide +kernel)
theorem notDigit_eq (c : UInt8) : notDigit c = true ↔ ¬ isDigit c := by
  revert c; exact forall_u8 (by decide +kernel)
theorem digit_eq : ∀ c, isDigit c → digit c = c.toNat - 48 := forall_u8 (by decide +kernel)

theorem notDigit_false {c : UInt8} (h : isDigit c) : notDigit c = false := by
  rw [← Bool.not_eq_true, notDigit_eq]; simpa using h

/-! ## Reading one character -/

theorem get_tok {t : Tok} (ht : t.Valid) (out rest : Bytes) :
    getLoop .regular out (t.text ++ rest) =
      if 63 ≤ out.length then .err .labelTooLong else getLoop .regular (out ++ [toUpper t.byte]) rest := by
  cases t with
  | plain c => simp [Tok.text, Tok.byte, getLoop, ht.1, ht.2, MaxLabel, upper_eq]
  | esc c =>
    have := (notDigit_eq c).2 ht
    simp [Tok.text, Tok.byte, getLoop, this, MaxLabel, upper_eq]
  | dec a b c =>
    obtain ⟨ha, hb, hc, hv⟩ := ht
    unfold decVal at hv
    have h1 : ¬ 255 < digit a * 100 := by rw [digit_eq a ha]; omega
    have h2 : ¬ 255 < digit a * 100 + digit b * 10 := by rw [digit_eq a ha, digit_eq b hb]; omega
    have h3 : ¬ 255 < digit a * 100 + digit b * 10 + digit c := by rw [digit_eq a ha, digit_eq b hb, digit_eq c hc]; omega
    have h4 : digit a * 100 + digit b * 10 + digit c = decVal a b c := by
      rw [digit_eq a ha, digit_eq b hb, digit_eq c hc]; rfl
    rw [h4] at h3
    simp [Tok.text, Tok.byte, getLoop, notDigit_false ha, notDigit_false hb, notDigit_false hc, h1, h2, h3, h4, MaxLabel,
      upper_eq]

theorem mark_tok {t : Tok} (ht : t.Valid) (cap i start : Nat) (offs : List Nat) (rest : Bytes) :
    markLoop cap .regular i start offs (t.text ++ rest) = markLoop cap .regular (i + t.text.length) start offs rest := by
  cases t with
  | plain c => simp [Tok.text, markLoop, ht.1, ht.2]
  | esc c =>
    have := (notDigit_eq c).2 ht
    simp [Tok.text, markLoop, this]
  | dec a b c =>
    obtain ⟨ha, hb, hc, hv⟩ := ht
    unfold decVal at hv
    have h1 : ¬ 255 < digit a * 100 := by rw [digit_eq a ha]; omega
    have h2 : ¬ 255 < digit a * 100 + digit b * 10 := by rw [digit_eq a ha, digit_eq b hb]; omega
    have h3 : ¬ 255 < digit a * 100 + digit b * 10 + digit c := by rw [digit_eq a ha, digit_eq b hb, digit_eq c hc]; omega
    simp [Tok.text, markLoop, notDigit_false ha, notDigit_false hb, notDigit_false hc, h1, h2, h3]

/-- A string is empty, starts with a dot, starts with a character, or is refused by both scanners as a broken escape. -/
theorem head_cases_escape (s : Bytes) : s = [] ∨ (∃ r, s = 46 :: r) ∨ (∃ t rest, Tok.Valid t ∧ s = t.text ++ rest) ∨
    ((∃ r, s = 92 :: r) ∧ (∀ cap i start offs, markLoop cap .regular i start offs s = .err .invalidEscape) ∧
      (∀ out, getLoop .regular out s = .err .invalidEscape)) := by
  cases s with
  | nil => exact .inl rfl
  | cons c r =>
    right
    by_cases h46 : c = 46
    · subst h46; exact .inl ⟨r, rfl⟩
    right
    by_cases h92 : c = 92
    · subst h92
      cases r with
      | nil => right; simp [markLoop, getLoop]
      | cons a r =>
        by_cases ha : isDigit a
        · have ha' := notDigit_false ha
          by_cases h1 : 255 < digit a * 100
          · right; simp [markLoop, getLoop, ha', h1]
          cases r with
          | nil => right; simp [markLoop, getLoop, ha', h1]
          | cons b r =>
            by_cases hb : isDigit b
            · have hb' := notDigit_false hb
              by_cases h2 : 255 < digit a * 100 + digit b * 10
              · right; simp [markLoop, getLoop, ha', hb', h1, h2]
              cases r with
              | nil => right; simp [markLoop, getLoop, ha', hb', h1, h2]
              | cons d r =>
                by_cases hd : isDigit d
                · have hd' := notDigit_false hd
                  by_cases h3 : 255 < digit a * 100 + digit b * 10 + digit d
                  · right; simp [markLoop, getLoop, ha', hb', hd', h1, h2, h3]
                  · left
                    refine ⟨.dec a b d, r, ⟨ha, hb, hd, ?_⟩, rfl⟩
                    rw [digit_eq a ha, digit_eq b hb, digit_eq d hd] at h3
                    unfold decVal; omega
                · right
                  have hd' := (notDigit_eq d).2 hd
                  simp [markLoop, getLoop, ha', hb', hd', h1, h2]
            · right
              have hb' := (notDigit_eq b).2 hb
              simp [markLoop, getLoop, ha', hb', h1]
        · left; exact ⟨.esc a, r, ha, rfl⟩
    · left; exact ⟨.plain c, r, ⟨h46, h92⟩, rfl⟩

/-- The same, less precise about the errors. -/
theorem head_cases (s : Bytes) : s = [] ∨ (∃ r, s = 46 :: r) ∨ (∃ t rest, Tok.Valid t ∧ s = t.text ++ rest) ∨
    ((∀ cap i start offs, ∃ e, markLoop cap .regular i start offs s = .err e) ∧ (∀ out, ∃ e, getLoop .regular out s = .err e)) := by
  rcases head_cases_escape s with h | h | h | ⟨_, h1, h2⟩
  · exact .inl h
  · exact .inr (.inl h)
  · exact .inr (.inr (.inl h))
  · exact .inr (.inr (.inr ⟨fun a b c d => ⟨_, h1 a b c d⟩, fun o => ⟨_, h2 o⟩⟩))

theorem Tok.text_ne_nil (t : Tok) : t.text ≠ [] := by cases t <;> simp [Tok.text]

theorem Tok.text_pos (t : Tok) : 0 < t.text.length := by cases t <;> simp [Tok.text]

/-! ## Reading a label -/

@[simp] theorem labelText_nil : labelText [] = [] := rfl
@[simp] theorem labelText_cons (t : Tok) (l : List Tok) : labelText (t :: l) = t.text ++ labelText l := by simp [labelText]

theorem labelText_pos {l : List Tok} (h : l ≠ []) : 0 < (labelText l).length := by
  cases l with
  | nil => exact absurd rfl h
  | cons t l => have := Tok.text_pos t; simp; omega

theorem get_toks {l : List Tok} (hl : ∀ t ∈ l, t.Valid) (out rest : Bytes) (h : out.length + l.length ≤ 63) :
    getLoop .regular out (labelText l ++ rest) = getLoop .regular (out ++ labelBytes l) rest := by
  induction l generalizing out with
  | nil => simp [labelBytes]
  | cons t l ih =>
    simp only [List.length_cons] at h
    rw [labelText_cons, List.append_assoc, get_tok (hl t (by simp)), if_neg (by omega),
      ih (fun x hx => hl x (by simp [hx])) _ (by simp; omega)]
    simp [labelBytes]

theorem get_toks_long {l : List Tok} (hl : ∀ t ∈ l, t.Valid) (out rest : Bytes) (ho : out.length ≤ 63) (h : 63 < out.length + l.length) :
    getLoop .regular out (labelText l ++ rest) = .err .labelTooLong := by
  induction l generalizing out with
  | nil => simp at h; omega
  | cons t l ih =>
    simp only [List.length_cons] at h
    rw [labelText_cons, List.append_assoc, get_tok (hl t (by simp))]
    split
    · rfl
    · exact ih (fun x hx => hl x (by simp [hx])) _ (by simp; omega) (by simp; omega)

/-- `getLabel` on the text of a label, with or without a final dot. -/
theorem getLabel_text {l : List Tok} (hl : ∀ t ∈ l, t.Valid) (dot : Bool) :
    getLabel (labelText l ++ if dot then [46] else []) =
      if l.length ≤ 63 then .ok (labelBytes l) else .err .labelTooLong := by
  unfold getLabel
  by_cases h : l.length ≤ 63
  · rw [if_pos h, get_toks hl _ _ (by simpa using h)]
    cases dot <;> simp [getLoop]
  · rw [if_neg h]
    exact get_toks_long hl _ _ (by simp) (by simp; omega)

/-- Whatever `getLabel` accepts is the text of a label. -/
theorem get_sound : ∀ (n : Nat) (s out r : Bytes), s.length ≤ n → out.length ≤ 63 → getLoop .regular out s = .ok r →
    ∃ l : List Tok, ∃ dot : Bool, (∀ t ∈ l, t.Valid) ∧ s = labelText l ++ (if dot then [46] else []) ∧ r = out ++ labelBytes l ∧
      r.length ≤ 63 := by
  intro n
  induction n with
  | zero =>
    intro s out r hs ho h
    have : s = [] := by cases s <;> simp_all
    subst this
    simp [getLoop] at h; subst h
    exact ⟨[], false, by simp, by simp, by simp [labelBytes], ho⟩
  | succ n ih =>
    intro s out r hs ho h
    rcases head_cases s with rfl | ⟨r', rfl⟩ | ⟨t, rest, ht, rfl⟩ | ⟨_, hbad⟩
    · simp [getLoop] at h; subst h
      exact ⟨[], false, by simp, by simp, by simp [labelBytes], ho⟩
    · simp only [getLoop, if_true] at h
      cases r' with
      | nil => simp at h; subst h; exact ⟨[], true, by simp, by simp, by simp [labelBytes], ho⟩
      | cons a b => simp at h
    · rw [get_tok ht] at h
      split at h
      · cases h
      · have := Tok.text_pos t
        simp only [List.length_append] at hs
        obtain ⟨l, dot, h1, h2, h3, h4⟩ := ih rest (out ++ [toUpper t.byte]) r (by omega) (by simp; omega) h
        refine ⟨t :: l, dot, ?_, ?_, ?_, h4⟩
        · intro x hx; simp at hx; rcases hx with rfl | hx
          · exact ht
          · exact h1 x hx
        · rw [h2]; simp
        · rw [h3]; simp [labelBytes]
    · obtain ⟨e, he⟩ := hbad out
      rw [he] at h; cases h

/-! ## Finding the labels -/

/-- Offsets of the labels of a name that starts at `i`. -/
def offsets : Nat → List (List Tok) → List Nat
  | _, [] => []
  | i, l :: ls => i :: offsets (i + (labelText l).length + 1) ls

theorem offsets_length (i : Nat) (ls : List (List Tok)) : (offsets i ls).length = ls.length := by
  induction ls generalizing i with
  | nil => rfl
  | cons l ls ih => simp [offsets, ih]

theorem mark_toks {l : List Tok} (hl : ∀ t ∈ l, t.Valid) (cap i start : Nat) (offs : List Nat) (rest : Bytes) :
    markLoop cap .regular i start offs (labelText l ++ rest) =
      markLoop cap .regular (i + (labelText l).length) start offs rest := by
  induction l generalizing i with
  | nil => simp
  | cons t l ih =>
    rw [labelText_cons, List.append_assoc, mark_tok (hl t (by simp)), ih (fun x hx => hl x (by simp [hx]))]
    simp [Nat.add_assoc]

theorem nameText_cons (l : List Tok) {ls : List (List Tok)} (h : ls ≠ []) (tr : Bool) :
    nameText (l :: ls) tr = labelText l ++ 46 :: nameText ls tr := by
  cases ls with
  | nil => exact absurd rfl h
  | cons a b => rfl

theorem mark_complete {ls : List (List Tok)} (hv : Valids ls) (cap i : Nat) (offs : List Nat) (tr : Bool)
    (hcap : offs.length + ls.length ≤ cap) :
    markLoop cap .regular i i offs (nameText ls tr) = .ok (offs ++ offsets i ls) := by
  induction ls generalizing i offs with
  | nil => simp [nameText, markLoop, offsets]
  | cons l ls ih =>
    have hl := hv l (by simp)
    have hpos := labelText_pos hl.1
    simp only [List.length_cons] at hcap
    cases ls with
    | nil =>
      simp only [nameText]
      rw [mark_toks hl.2]
      have h1 : ¬ cap ≤ offs.length := by simp at hcap; omega
      cases tr
      · have : i < i + (labelText l).length := by omega
        simp [markLoop, h1, offsets, this, -Nat.lt_add_right_iff_pos]
      · have : ¬ (i + (labelText l).length ≤ i) := by omega
        simp [markLoop, h1, offsets, this]
    | cons l2 ls =>
      rw [nameText_cons _ (by simp), mark_toks hl.2]
      have h1 : ¬ cap ≤ offs.length := by omega
      have : ¬ (i + (labelText l).length ≤ i) := by omega
      simp only [markLoop, if_true, this, if_false, h1]
      rw [ih (fun x hx => hv x (by simp [hx])) _ _ (by simp at hcap ⊢; omega)]
      simp [offsets]

/-- Splitting at the first dot. -/
theorem mark_first : ∀ (n : Nat) (s : Bytes) (cap i start : Nat) (offs offs' : List Nat), s.length ≤ n →
    markLoop cap .regular i start offs s = .ok offs' → ∃ l : List Tok, (∀ t ∈ l, t.Valid) ∧
      (s = labelText l ∧ (start < i + (labelText l).length → offs.length < cap ∧ offs' = offs ++ [start]) ∧
          (i + (labelText l).length ≤ start → offs' = offs) ∨
        ∃ s', s = labelText l ++ 46 :: s' ∧ start < i + (labelText l).length ∧ offs.length < cap ∧
          markLoop cap .regular (i + (labelText l).length + 1) (i + (labelText l).length + 1) (offs ++ [start]) s' = .ok offs') := by
  intro n
  induction n with
  | zero =>
    intro s cap i start offs offs' hs h
    have : s = [] := by cases s <;> simp_all
    subst this
    refine ⟨[], by simp, .inl ⟨rfl, ?_, ?_⟩⟩
    · intro hlt; simp at hlt; simp only [markLoop, hlt, if_true] at h
      split at h
      · cases h
      · rename_i h'; cases h; exact ⟨by omega, rfl⟩
    · intro hle; simp at hle
      have : ¬ start < i := by omega
      simp only [markLoop, this, if_false] at h; cases h; rfl
  | succ n ih =>
    intro s cap i start offs offs' hs h
    rcases head_cases s with rfl | ⟨r', rfl⟩ | ⟨t, rest, ht, rfl⟩ | ⟨hbad, _⟩
    · exact ih [] cap i start offs offs' (by simp) h
    · refine ⟨[], by simp, .inr ⟨r', rfl, ?_⟩⟩
      simp only [markLoop, if_true] at h
      split at h
      · cases h
      · split at h
        · cases h
        · refine ⟨by simp; omega, by omega, by simpa using h⟩
    · rw [mark_tok ht] at h
      have := Tok.text_pos t
      simp only [List.length_append] at hs
      obtain ⟨l, h1, h2⟩ := ih rest cap _ start offs offs' (by omega) h
      refine ⟨t :: l, ?_, ?_⟩
      · intro x hx; simp at hx; rcases hx with rfl | hx
        · exact ht
        · exact h1 x hx
      · simp only [labelText_cons, List.length_append]
        rcases h2 with ⟨h2, h3, h4⟩ | ⟨s', h2, h3, h4, h5⟩
        · left
          refine ⟨by rw [h2], ?_, ?_⟩
          · intro hx; exact h3 (by omega)
          · intro hx; exact h4 (by omega)
        · right
          refine ⟨s', by rw [h2]; simp, by omega, h4, ?_⟩
          rw [← Nat.add_assoc]; exact h5
    · obtain ⟨e, he⟩ := hbad cap i start offs
      rw [he] at h; cases h

theorem mark_sound : ∀ (n : Nat) (s : Bytes) (cap i : Nat) (offs offs' : List Nat), s.length ≤ n →
    markLoop cap .regular i i offs s = .ok offs' →
    ∃ ls tr, Valids ls ∧ s = nameText ls tr ∧ offs' = offs ++ offsets i ls := by
  intro n
  induction n with
  | zero =>
    intro s cap i offs offs' hs h
    have : s = [] := by cases s <;> simp_all
    subst this
    simp [markLoop] at h; subst h
    exact ⟨[], false, by simp [Valids], rfl, by simp [offsets]⟩
  | succ n ih =>
    intro s cap i offs offs' hs h
    obtain ⟨l, h1, h2⟩ := mark_first s.length s cap i i offs offs' (Nat.le_refl _) h
    rcases h2 with ⟨rfl, h3, h4⟩ | ⟨s', rfl, h3, h4, h5⟩
    · by_cases hl : l = []
      · subst hl
        exact ⟨[], false, by simp [Valids], rfl, by rw [h4 (by simp)]; simp [offsets]⟩
      · refine ⟨[l], false, ?_, by simp [nameText], ?_⟩
        · intro x hx; simp at hx; subst hx; exact ⟨hl, h1⟩
        · rw [(h3 (by have := labelText_pos hl; omega)).2]; simp [offsets]
    · have hl : l ≠ [] := by rintro rfl; simp at h3
      simp only [List.length_append, List.length_cons] at hs
      obtain ⟨ls, tr, h6, h7, h8⟩ := ih s' cap _ _ offs' (by omega) h5
      have hval : Valids (l :: ls) := by
        intro x hx; simp at hx; rcases hx with rfl | hx
        · exact ⟨hl, h1⟩
        · exact h6 x hx
      cases ls with
      | nil =>
        refine ⟨[l], true, hval, ?_, ?_⟩
        · rw [h7]; simp [nameText]
        · rw [h8]; simp [offsets]
      | cons l2 ls =>
        refine ⟨l :: l2 :: ls, tr, hval, ?_, ?_⟩
        · rw [nameText_cons _ (by simp), h7]
        · rw [h8]; simp [offsets]

/-! ## Collecting the labels -/

/-- Wire form: length byte and label, in the given order. -/
def encode (ls : List Bytes) : Bytes := ls.flatMap fun l => UInt8.ofNat l.length :: l

theorem encode_append (a b : List Bytes) : encode (a ++ b) = encode a ++ encode b := by simp [encode]

theorem nameText_snoc (ls : List (List Tok)) (l : List Tok) (tr : Bool) :
    nameText (ls ++ [l]) tr = nameText ls true ++ labelText l ++ if tr then [46] else [] := by
  induction ls with
  | nil => simp [nameText]
  | cons a ls ih =>
    have h1 : ls ++ [l] ≠ [] := by simp
    rw [List.cons_append, nameText_cons _ h1, ih]
    cases ls with
    | nil => simp [nameText]
    | cons b ls => rw [nameText_cons a (ls := b :: ls) (by simp)]; simp

theorem offsets_snoc (ls : List (List Tok)) (l : List Tok) (i : Nat) :
    offsets i (ls ++ [l]) = offsets i ls ++ [i + (nameText ls true).length] := by
  induction ls generalizing i with
  | nil => simp [offsets, nameText]
  | cons a ls ih =>
    rw [List.cons_append, offsets, ih]
    cases ls with
    | nil => simp [offsets, nameText]; omega
    | cons b ls => rw [nameText_cons a (ls := b :: ls) (by simp)]; simp [offsets]; omega

/-- Whether the labels (in the order they are copied) fit after `name`. -/
def fits : List (List Tok) → Nat → Prop
  | [], _ => True
  | l :: ls, j => l.length ≤ 63 ∧ j + (l.length + 1) ≤ 255 ∧ fits ls (j + (l.length + 1))

theorem labelBytes_length (l : List Tok) : (labelBytes l).length = l.length := by simp [labelBytes]

theorem nameLoop_spec {s : Bytes} (ls : List (List Tok)) (hv : Valids ls) (tr : Bool) (e : Nat) (name : Bytes)
    (hs : s.take e = nameText ls tr) :
    (fits ls.reverse name.length → nameLoop s (offsets 0 ls).reverse e name = .ok (name ++ encode (ls.reverse.map labelBytes))) ∧
    (¬ fits ls.reverse name.length → ∃ er, nameLoop s (offsets 0 ls).reverse e name = .err er) := by
  generalize hr : ls.reverse = rs
  induction rs generalizing ls tr e name with
  | nil =>
    have : ls = [] := by simpa using hr
    subst this
    simp [offsets, nameLoop, encode, fits]
  | cons l rs ih =>
    have hls : ls = rs.reverse ++ [l] := by
      have := congrArg List.reverse hr; simpa using this
    subst hls
    have hl := hv l (by simp)
    rw [offsets_snoc, List.reverse_append]
    simp only [List.reverse_cons, List.reverse_nil, List.nil_append, List.cons_append, Nat.zero_add]
    unfold nameLoop
    rw [nameText_snoc] at hs
    have hsl : slice s (nameText rs.reverse true).length e = labelText l ++ if tr then [46] else [] := by
      unfold slice; rw [hs, List.append_assoc, List.drop_left]
    rw [hsl, getLabel_text hl.2]
    have htake : s.take (nameText rs.reverse true).length = nameText rs.reverse true := by
      have h1 := congrArg (List.take (nameText rs.reverse true).length) hs
      rw [List.append_assoc, List.take_left, List.take_take] at h1
      have h2 : (nameText rs.reverse true).length ≤ e := by
        have := congrArg List.length hs
        simp only [List.length_take, List.length_append] at this
        omega
      rw [Nat.min_eq_left h2] at h1
      exact h1
    by_cases h63 : l.length ≤ 63
    · simp only [h63, if_true, labelBytes_length, MaxName]
      by_cases h255 : name.length + (l.length + 1) ≤ 255
      · have : ¬ 255 < name.length + (l.length + 1) := by omega
        simp only [this, if_false]
        have hI := ih rs.reverse (fun x hx => hv x (by simp at hx ⊢; exact .inl hx)) true (nameText rs.reverse true).length
          (name ++ UInt8.ofNat l.length :: labelBytes l) htake (by simp)
        have hlen : (name ++ UInt8.ofNat l.length :: labelBytes l).length = name.length + (l.length + 1) := by
          simp [labelBytes_length]
        rw [hlen] at hI
        constructor
        · rintro ⟨_, _, h3⟩
          rw [hI.1 h3]; simp [encode, labelBytes_length]
        · intro h3
          apply hI.2
          intro h4; exact h3 ⟨h63, h255, h4⟩
      · have : 255 < name.length + (l.length + 1) := by omega
        simp only [this, if_true]
        constructor
        · rintro ⟨_, h, _⟩; omega
        · intro _; exact ⟨_, rfl⟩
    · simp only [h63, if_false]
      constructor
      · rintro ⟨h, _⟩; omega
      · intro _; exact ⟨_, rfl⟩

theorem fits_iff (ls : List (List Tok)) (j : Nat) (hj : j ≤ 255) :
    fits ls j ↔ (∀ l ∈ ls, l.length ≤ 63) ∧ j + (ls.map fun l => l.length + 1).sum ≤ 255 := by
  induction ls generalizing j with
  | nil => simp [fits, hj]
  | cons l ls ih =>
    simp only [fits, List.mem_cons, forall_eq_or_imp, List.map_cons, List.sum_cons]
    constructor
    · rintro ⟨h1, h2, h3⟩
      obtain ⟨h4, h5⟩ := (ih _ h2).1 h3
      exact ⟨⟨h1, h4⟩, by omega⟩
    · rintro ⟨⟨h1, h4⟩, h5⟩
      exact ⟨h1, by omega, (ih _ (by omega)).2 ⟨h4, by omega⟩⟩

theorem fits_limits {ls : List (List Tok)} (hv : Valids ls) : fits ls.reverse 0 ↔ WithinLimits ls := by
  rw [fits_iff _ _ (by omega)]
  unfold WithinLimits
  simp only [List.mem_reverse, List.map_reverse, List.sum_reverse, Nat.zero_add]
  constructor
  · rintro ⟨h1, h2⟩
    refine ⟨fun l hl => ⟨?_, h1 l hl⟩, h2⟩
    have := (hv l hl).1
    cases l <;> simp_all
  · rintro ⟨h1, h2⟩
    exact ⟨fun l hl => (h1 l hl).2, h2⟩

theorem limits_count {ls : List (List Tok)} (h : WithinLimits ls) : ls.length ≤ 127 := by
  have h1 : 2 * ls.length ≤ (ls.map fun l => l.length + 1).sum := by
    have := h.1
    clear h
    induction ls with
    | nil => simp
    | cons l ls ih =>
      have h2 := this l (by simp)
      have h3 := ih (fun x hx => this x (by simp [hx]))
      simp only [List.length_cons, List.map_cons, List.sum_cons]
      omega
  have := h.2
  omega

/-! ## Whole names -/

theorem nameText_length_pos {ls : List (List Tok)} (hv : Valids ls) (hne : ls ≠ []) (tr : Bool) :
    0 < (nameText ls tr).length ∧ nameText ls tr ≠ [46] := by
  cases ls with
  | nil => exact absurd rfl hne
  | cons l ls =>
    have hl := hv l (by simp)
    have h1 : ∃ c r, labelText l = c :: r ∧ c ≠ 46 := by
      cases l with
      | nil => exact absurd rfl hl.1
      | cons t l =>
        have ht := hl.2 t (by simp)
        cases t with
        | plain c => exact ⟨c, _, rfl, ht.1⟩
        | esc c => exact ⟨92, _, rfl, by decide⟩
        | dec a b c => exact ⟨92, _, rfl, by decide⟩
    obtain ⟨c, r, h2, h3⟩ := h1
    cases ls with
    | nil => simp only [nameText, h2]; simp [h3]
    | cons l2 ls => rw [nameText_cons _ (by simp), h2]; simp [h3]

theorem make_complete {ls : List (List Tok)} (hv : Valids ls) (tr : Bool) (hlim : WithinLimits ls) :
    MakeNameFromString (nameText ls tr) = .ok ⟨nameText ls tr, encode (ls.reverse.map labelBytes)⟩ := by
  by_cases hne : ls = []
  · subst hne; simp [nameText, MakeNameFromString, encode]
  · obtain ⟨h1, h2⟩ := nameText_length_pos hv hne tr
    unfold MakeNameFromString
    rw [if_neg (by omega), if_neg h2]
    have h3 := mark_complete hv MaxLabels 0 [] tr (by simp [MaxLabels, MaxName]; exact limits_count hlim)
    unfold markLabels
    rw [h3]
    simp only [List.nil_append]
    rw [(nameLoop_spec (s := nameText ls tr) ls hv tr (nameText ls tr).length [] (by simp)).1 ((fits_limits hv).2 hlim)]
    simp

theorem make_sound {s : Bytes} {n : Name} (h : MakeNameFromString s = .ok n) :
    (s = [46] ∧ n = ⟨[46], []⟩) ∨ ∃ ls tr, Valids ls ∧ WithinLimits ls ∧ s = nameText ls tr ∧
      n = ⟨s, encode (ls.reverse.map labelBytes)⟩ := by
  unfold MakeNameFromString at h
  split at h
  · rename_i h0
    cases h
    right
    have : s = [] := by cases s <;> simp_all
    subst this
    exact ⟨[], false, by simp [Valids], by simp [WithinLimits], rfl, by simp [encode]⟩
  · split at h
    · rename_i h0; cases h; exact .inl ⟨h0, by rw [h0]⟩
    · right
      cases hm : markLabels s MaxLabels with
      | err e => rw [hm] at h; cases h
      | panic => rw [hm] at h; cases h
      | ok offs =>
        rw [hm] at h
        obtain ⟨ls, tr, h1, h2, h3⟩ := mark_sound s.length s MaxLabels 0 [] offs (Nat.le_refl _) hm
        simp only [List.nil_append] at h3
        subst h3
        have hn := nameLoop_spec (s := s) ls h1 tr s.length [] (by rw [← h2]; simp)
        by_cases hf : fits ls.reverse 0
        · simp only [hn.1 hf] at h
          cases h
          exact ⟨ls, tr, h1, (fits_limits h1).1 hf, h2, by simp⟩
        · obtain ⟨er, he⟩ := hn.2 hf
          simp only [he] at h
          cases h

theorem make_no_panic (s : Bytes) : MakeNameFromString s ≠ .panic := by
  unfold MakeNameFromString
  split
  · simp
  · split
    · simp
    · cases hm : markLabels s MaxLabels with
      | err e => simp
      | panic =>
        exfalso
        have : ∀ (cap : Nat) (e : Esc) (i st : Nat) (offs : List Nat) (s : Bytes), markLoop cap e i st offs s ≠ .panic := by
          intro cap e i st offs s
          induction s generalizing e i st offs with
          | nil => cases e <;> simp only [markLoop] <;> (repeat' split) <;> simp
          | cons c s ih => cases e <;> simp only [markLoop] <;> (repeat' split) <;> first | apply ih | simp
        exact this _ _ _ _ _ _ hm
      | ok offs =>
        obtain ⟨ls, tr, h1, h2, h3⟩ := mark_sound s.length s MaxLabels 0 [] offs (Nat.le_refl _) hm
        simp only [List.nil_append] at h3
        subst h3
        have hn := nameLoop_spec (s := s) ls h1 tr s.length [] (by rw [← h2]; simp)
        by_cases hf : fits ls.reverse 0
        · simp [hn.1 hf]
        · obtain ⟨er, he⟩ := hn.2 hf
          simp [he]

end Verif.Domain
