import Verif.Domain.Labels

/-! # Properties C20-C25 of package domain -/

namespace Verif.Props
open Verif.Domain Verif.DomainText

/-- C20: printing a label and parsing it gives it back upper-cased. -/
theorem C20_round_trip (l : Bytes) (h : l.length ≤ 63) :
    ∃ t, MakeHumanReadableLabel l = some t ∧ MakeLabel t = .ok (l.map toUpper) :=
  ⟨_, human_short l [] 0 (by simp) (by omega), makeLabel_human l h⟩

/-- C20: the printed form is printable ASCII and the text of one label, so it has no unescaped dot. -/
theorem C20_printable (l : Bytes) (h : l.length ≤ 63) : ∃ t, MakeHumanReadableLabel l = some t ∧
    (∀ x ∈ t, 33 ≤ x ∧ x ≤ 126) ∧ ∃ toks : List Tok, (∀ k ∈ toks, k.Valid) ∧ t = labelText toks ∧ toks.length = l.length := by
  refine ⟨_, human_short l [] 0 (by simp) (by omega), ?_, l.map tokOf, ?_, by simp, by simp⟩
  · intro x hx
    simp only [List.nil_append, labelText, List.mem_flatMap, List.mem_map] at hx
    obtain ⟨k, ⟨c, _, rfl⟩, hx⟩ := hx
    exact tokOf_printable c x hx
  · intro k hk
    simp only [List.mem_map] at hk
    obtain ⟨c, _, rfl⟩ := hk
    exact tokOf_valid c

example : MakeHumanReadableLabel [97, 66, 46, 92, 0, 255] =
    some [97, 98, 92, 46, 92, 92, 92, 48, 48, 48, 92, 50, 53, 53] := by decide +kernel
example : MakeLabel [97, 98, 92, 46, 92, 92, 92, 48, 48, 48, 92, 50, 53, 53] = .ok [65, 66, 46, 92, 0, 255] := by decide +kernel

/-- C21: parsing never panics. -/
theorem C21_no_panic (s : Bytes) : MakeNameFromString s ≠ .panic := make_no_panic s

/-- C21: parsed names respect the limits. -/
theorem C21_limits {s : Bytes} {n : Name} (h : MakeNameFromString s = .ok n) :
    ∃ ls, n.labels = some ls ∧ ls.length ≤ 127 ∧ (∀ l ∈ ls, 1 ≤ l.length ∧ l.length ≤ 63) ∧
      (ls.map fun l => l.length + 1).sum ≤ 255 ∧ n.c.length = (ls.map fun l => l.length + 1).sum := by
  rcases make_sound h with ⟨_, rfl⟩ | ⟨ls, tr, hv, hlim, _, rfl⟩
  · exact ⟨[], rfl, by simp⟩
  · refine ⟨_, labels_encode _ (short_of_limits hlim) _, ?_, short_of_limits hlim, ?_, ?_⟩
    · have := limits_count hlim; simpa using this
    · have := hlim.2
      simpa [Function.comp_def, labelBytes_length, List.sum_reverse] using this
    · simp [encode, Function.comp_def, List.length_flatMap]

example : MakeNameFromString [119, 119, 119, 46, 97, 92, 46, 98, 46] =
    .ok ⟨[119, 119, 119, 46, 97, 92, 46, 98, 46], [3, 65, 46, 66, 3, 87, 87, 87]⟩ := by decide +kernel

/-- C22: the accepted strings are the empty one, the dot, and the texts of label lists within the limits. -/
theorem C22_accepts (s : Bytes) : (∃ n, MakeNameFromString s = .ok n) ↔
    s = [46] ∨ ∃ ls tr, Valids ls ∧ WithinLimits ls ∧ s = nameText ls tr := by
  constructor
  · rintro ⟨n, h⟩
    rcases make_sound h with ⟨h, _⟩ | ⟨ls, tr, hv, hlim, hs, _⟩
    · exact .inl h
    · exact .inr ⟨ls, tr, hv, hlim, hs⟩
  · rintro (rfl | ⟨ls, tr, hv, hlim, rfl⟩)
    · exact ⟨⟨[46], []⟩, by decide⟩
    · exact ⟨_, make_complete hv tr hlim⟩

/-- C22: the labels of an accepted string, last one first, decoded and upper-cased. -/
theorem C22_labels {ls : List (List Tok)} (hv : Valids ls) (tr : Bool) (hlim : WithinLimits ls) :
    ∃ n, MakeNameFromString (nameText ls tr) = .ok n ∧ n.labels = some (ls.map labelBytes).reverse ∧
      n.String = nameText ls tr := by
  refine ⟨_, make_complete hv tr hlim, ?_, rfl⟩
  rw [labels_encode _ (short_of_limits hlim), List.map_reverse]

/-- C22: the decomposition is unique, so the labels are those of the text. -/
theorem C22_unambiguous {a b : List (List Tok)} (ha : Valids a) (hb : Valids b) {t1 t2 : Bool} (h : nameText a t1 = nameText b t2) :
    a = b := name_unique ha hb h

/-- The text `w\.w.\065` with its labels. -/
example : nameText [[.plain 119, .esc 46, .plain 119], [.dec 48 54 53]] false = [119, 92, 46, 119, 46, 92, 48, 54, 53] ∧
    Valids [[.plain 119, .esc 46, .plain 119], [.dec 48 54 53]] ∧ WithinLimits [[.plain 119, .esc 46, .plain 119], [.dec 48 54 53]] := by
  refine ⟨by decide, ?_, ?_⟩
  · unfold Valids; decide
  · unfold WithinLimits; decide

example : (∃ e, MakeNameFromString [97, 46, 46, 98] = .err e) ∧ (∃ e, MakeNameFromString [92, 50, 53, 54] = .err e) :=
  ⟨⟨.emptyLabel, by decide⟩, ⟨.invalidEscape, by decide⟩⟩

/-- C23: names are equal label by label exactly when the decoded labels are equal up to ASCII case. -/
theorem C23_case_insensitive {s1 s2 : Bytes} {n1 n2 : Name} (h1 : MakeNameFromString s1 = .ok n1) (h2 : MakeNameFromString s2 = .ok n2)
    {a b : List (List Tok)} {t1 t2 : Bool} (ha : Valids a) (hb : Valids b) (e1 : s1 = nameText a t1) (e2 : s2 = nameText b t2) :
    n1.labels = n2.labels ↔ caseFold (a.map decoded) = caseFold (b.map decoded) := by
  have lim : ∀ {s : Bytes} {n : Name} {a : List (List Tok)} {t : Bool}, MakeNameFromString s = .ok n → Valids a → s = nameText a t →
      WithinLimits a := by
    intro s n a t h ha e
    rcases make_sound h with ⟨h, _⟩ | ⟨ls, tr, hv, hlim, hs, _⟩
    · cases a with
      | nil => simp [WithinLimits]
      | cons x xs => exact absurd (e.symm.trans h) (nameText_length_pos ha (by simp) t).2
    · rw [hs] at e
      rw [← name_unique hv ha e]; exact hlim
  obtain ⟨m1, f1, g1, _⟩ := C22_labels ha t1 (lim h1 ha e1)
  obtain ⟨m2, f2, g2, _⟩ := C22_labels hb t2 (lim h2 hb e2)
  rw [← e1, h1] at f1; cases f1
  rw [← e2, h2] at f2; cases f2
  rw [g1, g2, Option.some.injEq, List.reverse_inj]
  simp only [caseFold, decoded, List.map_map, Function.comp_def]
  exact Iff.rfl

example : (match MakeNameFromString [119, 46, 97], MakeNameFromString [92, 48, 56, 55, 46, 65, 46] with
    | .ok a, .ok b => decide (a.labels = b.labels) | _, _ => false) = true := by decide +kernel

/-- C24: GetLabels calls the callback on each label from the top-level one, stops at the first error and returns it. -/
theorem C24_getLabels {s : Bytes} {n : Name} (h : MakeNameFromString s = .ok n) {σ E : Type} (f : σ → Bytes → σ × Option E) (st : σ) :
    ∃ ls, n.labels = some ls ∧ n.GetLabels f st = some (foldStop f st ls) := by
  rcases make_sound h with ⟨_, rfl⟩ | ⟨ls, tr, hv, hlim, _, rfl⟩
  · exact ⟨[], rfl, rfl⟩
  · exact ⟨_, labels_encode _ (short_of_limits hlim) _, getLabels_encode f _ (short_of_limits hlim) _ st⟩

/-- C24: walking GetLabel from offset 0 gives the same labels; for the root name GetLabel(0) is the empty label. -/
theorem C24_walk {s : Bytes} {n : Name} (h : MakeNameFromString s = .ok n) :
    ∃ ls, n.labels = some ls ∧ (ls ≠ [] → walk n 127 0 = some ls) ∧ (ls = [] → n.GetLabel 0 = ([], 0)) := by
  rcases make_sound h with ⟨_, rfl⟩ | ⟨ls, tr, hv, hlim, _, rfl⟩
  · exact ⟨[], rfl, by simp, fun _ => rfl⟩
  · refine ⟨_, labels_encode _ (short_of_limits hlim) _, ?_, ?_⟩
    · intro hne
      exact walk_encode [] _ hne (short_of_limits hlim) _ 127 (by have := limits_count hlim; simpa using this)
    · intro he; simp at he; subst he; rfl

example : (walk ⟨[], [1, 65, 2, 66, 67]⟩ 127 0) = some [[65], [66, 67]] ∧
    Name.GetLabels (E := Nat) ⟨[], [1, 65, 2, 66, 67, 1, 68]⟩ (fun (k : Nat) l => (k + 1, if l = [66, 67] then some 7 else none)) 0 =
      some (2, some 7) := by decide +kernel

/-- C25 is false of the code: 253 capital letters overrun the 252-byte buffer. -/
theorem C25_false : ¬ ∀ s : Bytes, (MakeHumanReadableLabel s).isSome = true := by
  intro h
  exact absurd (h (List.replicate 253 65)) (by decide +kernel)

/-- C25, the part that holds: no panic for labels of legal length or without capital letters; the result never
exceeds 252 bytes.  Missing: inputs longer than 63 bytes with capital letters, where it may panic. -/
theorem C25_no_panic_partial (s : Bytes) (h : s.length ≤ 63 ∨ ∀ c ∈ s, ¬ (65 ≤ c ∧ c ≤ 90)) :
    ∃ r, MakeHumanReadableLabel s = some r ∧ r.length ≤ 252 := by
  rcases h with h | h
  · exact ⟨_, human_short s [] 0 (by simp) (by omega), human_le s [] _ (by simp) (human_short s [] 0 (by simp) (by omega))⟩
  · have := human_no_upper s [] h
    obtain ⟨r, hr⟩ := Option.isSome_iff_exists.1 this
    exact ⟨r, hr, human_le s [] r (by simp) hr⟩

/-- C25: whatever is returned has at most 252 bytes. -/
theorem C25_truncated (s r : Bytes) (h : MakeHumanReadableLabel s = some r) : r.length ≤ 252 := human_le s [] r (by simp) h

example : (MakeHumanReadableLabel (List.replicate 300 97)).map List.length = some 252 := by decide +kernel

end Verif.Props
