import Verif.Domain.Parse

/-! # Reading labels back, printing labels, unambiguity of the grammar -/

namespace Verif.Domain
open Verif.DomainText

/-- Labels with a length that fits its byte. -/
def Short (ls : List Bytes) : Prop := ∀ l ∈ ls, 1 ≤ l.length ∧ l.length ≤ 63

theorem encode_cons (l : Bytes) (ls : List Bytes) : encode (l :: ls) = UInt8.ofNat l.length :: (l ++ encode ls) := by
  simp [encode]

theorem getD_append_len (a b : Bytes) (d x : UInt8) : (a ++ x :: b).getD a.length d = x := by
  simp [List.getD]

theorem toNat_ofNat_short {n : Nat} (h : n ≤ 63) : (UInt8.ofNat n).toNat = n := by
  rw [UInt8.toNat_ofNat']; omega

theorem slice_mid (a b c : Bytes) : slice (a ++ (b ++ c)) a.length (a.length + b.length) = b := by
  unfold slice
  rw [← List.append_assoc, ← List.length_append, List.take_left, List.drop_left]

theorem encode_length_pos {ls : List Bytes} (h : ls ≠ []) : 0 < (encode ls).length := by
  cases ls with
  | nil => exact absurd rfl h
  | cons l ls => simp [encode]

theorem getLabelsLoop_encode {σ E : Type} (f : σ → Bytes → σ × Option E) (pre ls : List Bytes) (hs : Short ls) (fuel : Nat)
    (hf : ls.length < fuel) (st : σ) :
    getLabelsLoop f (encode (pre ++ ls)) fuel (encode pre).length st = some (foldStop f st ls) := by
  induction ls generalizing pre fuel st with
  | nil =>
    cases fuel with
    | zero => omega
    | succ fuel => simp [getLabelsLoop, foldStop]
  | cons l ls ih =>
    cases fuel with
    | zero => omega
    | succ fuel =>
      have hl := hs l (by simp)
      unfold getLabelsLoop
      have e1 : encode (pre ++ l :: ls) = encode pre ++ UInt8.ofNat l.length :: (l ++ encode ls) := by
        rw [encode_append, encode_cons]
      have hlt : (encode pre).length < (encode (pre ++ l :: ls)).length := by rw [e1]; simp
      simp only [hlt, if_true, Nat.add_sub_cancel]
      have hd : (encode (pre ++ l :: ls)).getD (encode pre).length 0 = UInt8.ofNat l.length := by
        rw [e1]; exact getD_append_len _ _ _ _
      rw [hd, toNat_ofNat_short hl.2]
      have hle : ¬ (encode (pre ++ l :: ls)).length < (encode pre).length + 1 + l.length := by rw [e1]; simp; omega
      simp only [hle, if_false]
      have hsl : slice (encode (pre ++ l :: ls)) ((encode pre).length + 1) ((encode pre).length + 1 + l.length) = l := by
        rw [e1]
        have := slice_mid (encode pre ++ [UInt8.ofNat l.length]) l (encode ls)
        simpa using this
      rw [hsl]
      unfold foldStop
      have hnext : (encode pre).length + 1 + l.length = (encode (pre ++ [l])).length := by
        rw [encode_append]; simp [encode]; omega
      cases hfl : f st l with
      | mk st' o =>
        cases o with
        | some e => simp
        | none =>
          simp only
          have := ih (pre ++ [l]) (fun x hx => hs x (by simp [hx])) fuel (by simp at hf; omega) st'
          rw [← hnext] at this
          rw [← this]; simp

theorem length_le_encode (ls : List Bytes) : ls.length ≤ (encode ls).length := by
  induction ls with
  | nil => simp
  | cons l ls ih => rw [encode_cons]; simp; omega

/-- `GetLabels` on a name that holds `ls`. -/
theorem getLabels_encode {σ E : Type} (f : σ → Bytes → σ × Option E) (ls : List Bytes) (hs : Short ls) (h : Bytes) (st : σ) :
    Name.GetLabels ⟨h, encode ls⟩ f st = some (foldStop f st ls) := by
  have := getLabelsLoop_encode f [] ls hs ((encode ls).length + 1) (by have := length_le_encode ls; omega) st
  simpa [Name.GetLabels, encode] using this

/-- The labels a name holds, as `GetLabels` reports them. -/
def Name.labels (n : Name) : Option (List Bytes) :=
  (n.GetLabels (E := Unit) (fun (acc : List Bytes) l => (acc ++ [l], none)) []).map Prod.fst

theorem foldStop_collect (acc ls : List Bytes) :
    foldStop (E := Unit) (fun (acc : List Bytes) l => (acc ++ [l], none)) acc ls = (acc ++ ls, none) := by
  induction ls generalizing acc with
  | nil => simp [foldStop]
  | cons l ls ih => simp [foldStop, ih]

theorem labels_encode (ls : List Bytes) (hs : Short ls) (h : Bytes) : Name.labels ⟨h, encode ls⟩ = some ls := by
  unfold Name.labels
  rw [getLabels_encode _ _ hs, foldStop_collect]; simp

theorem short_of_limits {ls : List (List Tok)} (h : WithinLimits ls) : Short (ls.reverse.map labelBytes) := by
  intro l hl
  simp only [List.mem_map, List.mem_reverse] at hl
  obtain ⟨l', hl', rfl⟩ := hl
  rw [labelBytes_length]; exact h.1 l' hl'

/-- Walking `GetLabel` from an offset until it answers offset 0; `none` if it answers -1. -/
def walk (n : Name) : Nat → Int → Option (List Bytes)
  | 0, _ => none
  | fuel + 1, off =>
    let r := n.GetLabel off
    if r.2 = 0 then some [r.1] else if r.2 < 0 then none else (walk n fuel r.2).map (r.1 :: ·)

theorem getLabel_encode (pre : List Bytes) (l : Bytes) (ls : List Bytes) (hl : 1 ≤ l.length ∧ l.length ≤ 63) (h : Bytes) :
    Name.GetLabel ⟨h, encode (pre ++ l :: ls)⟩ (encode pre).length =
      (l, if ls = [] then 0 else ((encode (pre ++ [l])).length : Int)) := by
  unfold Name.GetLabel
  have e1 : encode (pre ++ l :: ls) = encode pre ++ UInt8.ofNat l.length :: (l ++ encode ls) := by
    rw [encode_append, encode_cons]
  have hlen : (encode (pre ++ l :: ls)).length = (encode pre).length + 1 + l.length + (encode ls).length := by
    rw [e1]; simp; omega
  simp only [Int.toNat_natCast]
  have hd : (encode (pre ++ l :: ls)).getD (encode pre).length 0 = UInt8.ofNat l.length := by
    rw [e1]; exact getD_append_len _ _ _ _
  simp only [hd, toNat_ofNat_short hl.2, hlen]
  have c1 : ¬ ((((encode pre).length : Int) = 0 && (encode pre).length + 1 + l.length + (encode ls).length = 0) = true) := by
    simp
  have c2 : ¬ (((((encode pre).length : Int) < 0) || (((encode pre).length + 1 + l.length + (encode ls).length : Nat) : Int) ≤ ((encode pre).length : Int)) = true) := by
    simp; omega
  have c3 : ¬ ((l.length < 1 || 63 < l.length) = true) := by simp only [Bool.or_eq_true, decide_eq_true_eq]; omega
  rw [if_neg c1, if_neg c2, if_neg c3]
  have hsl : slice (encode (pre ++ l :: ls)) ((encode pre).length + 1) ((encode pre).length + 1 + l.length) = l := by
    rw [e1]
    have := slice_mid (encode pre ++ [UInt8.ofNat l.length]) l (encode ls)
    simpa using this
  by_cases hne : ls = []
  · subst hne
    rw [if_pos (by simp [encode])]
    simp only [if_true, Prod.mk.injEq, and_true]
    rw [e1]
    have : encode pre ++ UInt8.ofNat l.length :: (l ++ encode []) = (encode pre ++ [UInt8.ofNat l.length]) ++ l := by simp [encode]
    rw [this, show (encode pre).length + 1 = (encode pre ++ [UInt8.ofNat l.length]).length by simp, List.drop_left]
  · have := encode_length_pos hne
    rw [if_neg (by omega), hsl, if_neg hne]
    simp only [Prod.mk.injEq, true_and]
    rw [encode_append]; simp [encode]; omega

theorem walk_encode (pre ls : List Bytes) (hne : ls ≠ []) (hs : Short ls) (h : Bytes) (fuel : Nat) (hf : ls.length ≤ fuel) :
    walk ⟨h, encode (pre ++ ls)⟩ fuel (encode pre).length = some ls := by
  induction ls generalizing pre fuel with
  | nil => exact absurd rfl hne
  | cons l ls ih =>
    cases fuel with
    | zero => simp at hf
    | succ fuel =>
      unfold walk
      rw [getLabel_encode pre l ls (hs l (by simp))]
      by_cases hls : ls = []
      · subst hls; simp
      · have h1 : ¬ (((encode (pre ++ [l])).length : Int) = 0) := by
          have := encode_length_pos (ls := pre ++ [l]) (by simp); omega
        have h2 : ¬ (((encode (pre ++ [l])).length : Int) < 0) := by omega
        simp only [hls, if_false, h1, h2]
        have := ih (pre ++ [l]) hls (fun x hx => hs x (by simp [hx])) fuel (by simp at hf; omega)
        rw [List.append_assoc, List.singleton_append] at this
        rw [this]; rfl

/-! ## Injectivity -/

theorem encode_inj {a b : List Bytes} (ha : Short a) (hb : Short b) (h : encode a = encode b) : a = b := by
  have h1 := labels_encode a ha []
  have h2 := labels_encode b hb []
  rw [h] at h1
  rw [h1] at h2
  exact Option.some.inj h2

theorem tok_unique {t1 t2 : Tok} (h1 : t1.Valid) (h2 : t2.Valid) {r1 r2 : Bytes} (h : t1.text ++ r1 = t2.text ++ r2) :
    t1 = t2 ∧ r1 = r2 := by
  cases t1 <;> cases t2 <;> simp only [Tok.text, Tok.Valid, List.cons_append, List.nil_append, List.cons.injEq, reduceCtorEq, false_and,
    Tok.plain.injEq, Tok.esc.injEq, Tok.dec.injEq] at h h1 h2 ⊢
  · exact h
  · exact absurd h.1 h1.2
  · exact absurd h.1 h1.2
  · exact absurd h.1.symm h2.2
  · exact h.2
  · exact absurd (h.2.1 ▸ h2.1) h1
  · exact absurd h.1.symm h2.2
  · exact absurd (h.2.1 ▸ h1.1) h2
  · exact ⟨⟨h.2.1, h.2.2.1, h.2.2.2.1⟩, h.2.2.2.2⟩

/-- Not continuing a label: at the end or at a dot. -/
def AtEnd (r : Bytes) : Prop := r = [] ∨ ∃ r', r = 46 :: r'

theorem not_atEnd {t : Tok} (ht : t.Valid) (r : Bytes) : ¬ AtEnd (t.text ++ r) := by
  rintro (h | ⟨r', h⟩)
  · have := Tok.text_ne_nil t; simp at h; exact this h.1
  · cases t <;> simp [Tok.text, Tok.Valid] at h ht
    exact ht.1 h.1

theorem label_unique {l1 l2 : List Tok} (h1 : ∀ t ∈ l1, t.Valid) (h2 : ∀ t ∈ l2, t.Valid) {r1 r2 : Bytes} (e1 : AtEnd r1)
    (e2 : AtEnd r2) (h : labelText l1 ++ r1 = labelText l2 ++ r2) : l1 = l2 ∧ r1 = r2 := by
  induction l1 generalizing l2 with
  | nil =>
    cases l2 with
    | nil => exact ⟨rfl, by simpa using h⟩
    | cons t l2 =>
      simp only [labelText_nil, List.nil_append, labelText_cons, List.append_assoc] at h
      rw [h] at e1; exact absurd e1 (not_atEnd (h2 t (by simp)) _)
  | cons t l1 ih =>
    cases l2 with
    | nil =>
      simp only [labelText_nil, List.nil_append, labelText_cons, List.append_assoc] at h
      rw [← h] at e2; exact absurd e2 (not_atEnd (h1 t (by simp)) _)
    | cons t2 l2 =>
      simp only [labelText_cons, List.append_assoc] at h
      obtain ⟨rfl, h'⟩ := tok_unique (h1 t (by simp)) (h2 t2 (by simp)) h
      obtain ⟨rfl, h''⟩ := ih (fun x hx => h1 x (by simp [hx])) (fun x hx => h2 x (by simp [hx])) h'
      exact ⟨rfl, h''⟩

/-- The text determines the labels. -/
theorem name_unique {a b : List (List Tok)} (ha : Valids a) (hb : Valids b) {t1 t2 : Bool} (h : nameText a t1 = nameText b t2) :
    a = b := by
  induction a generalizing b with
  | nil =>
    cases b with
    | nil => rfl
    | cons y ys =>
      have := (nameText_length_pos hb (by simp) t2).1
      rw [← h] at this; simp [nameText] at this
  | cons x xs ih =>
    have key : ∀ (x : List Tok) (xs : List (List Tok)) (t : Bool), Valids (x :: xs) → ∃ r, nameText (x :: xs) t = labelText x ++ r ∧ AtEnd r ∧
        ((xs = [] ∧ (r = [] ∨ r = [46])) ∨ (xs ≠ [] ∧ r = 46 :: nameText xs t)) := by
      intro x xs t hv
      cases xs with
      | nil => cases t
               · exact ⟨[], by simp [nameText], .inl rfl, by simp⟩
               · exact ⟨[46], by simp [nameText], .inr ⟨[], rfl⟩, by simp⟩
      | cons y ys => exact ⟨_, nameText_cons x (ls := y :: ys) (by simp) t, .inr ⟨_, rfl⟩, .inr ⟨by simp, rfl⟩⟩
    cases b with
    | nil =>
      have := (nameText_length_pos ha (by simp) t1).1
      rw [h] at this; simp [nameText] at this
    | cons y ys =>
      obtain ⟨r1, e1, f1, g1⟩ := key x xs t1 ha
      obtain ⟨r2, e2, f2, g2⟩ := key y ys t2 hb
      rw [e1, e2] at h
      obtain ⟨rfl, rfl⟩ := label_unique (ha x (by simp)).2 (hb y (by simp)).2 f1 f2 h
      congr 1
      have hxs : Valids xs := fun z hz => ha z (by simp [hz])
      have hys : Valids ys := fun z hz => hb z (by simp [hz])
      rcases g1 with ⟨rfl, g1⟩ | ⟨n1, g1⟩
      · rcases g2 with ⟨rfl, g2⟩ | ⟨n2, g2⟩
        · rfl
        · exfalso
          have := (nameText_length_pos hys n2 t2).1
          rcases g1 with g1 | g1 <;> rw [g1] at g2
          · cases g2
          · have h9 := congrArg List.length g2; simp only [List.length_cons, List.length_nil] at h9; omega
      · rcases g2 with ⟨rfl, g2⟩ | ⟨n2, g2⟩
        · exfalso
          have := (nameText_length_pos hxs n1 t1).1
          rcases g2 with g2 | g2 <;> rw [g2] at g1
          · cases g1
          · have h9 := congrArg List.length g1; simp only [List.length_cons, List.length_nil] at h9; omega
        · rw [g1] at g2
          exact ih hxs hys (by simpa using g2)

/-! ## Printing -/

/-- How a byte is written by `MakeHumanReadableLabel`. -/
def tokOf (c : UInt8) : Tok :=
  if c = 46 || c = 92 then .esc c
  else if c < 33 || 126 < c then .dec (c / 10 / 10 + 48) (c / 10 % 10 + 48) (c % 10 + 48)
  else if 65 ≤ c && c ≤ 90 then .plain (c ||| 0x20)
  else .plain c

theorem tokOf_valid : ∀ c, (tokOf c).Valid := forall_u8 (by decide +kernel)
theorem tokOf_byte : ∀ c, toUpper (tokOf c).byte = toUpper c := forall_u8 (by decide +kernel)
theorem tokOf_printable : ∀ c, ∀ x ∈ (tokOf c).text, 33 ≤ x ∧ x ≤ 126 := forall_u8 (by decide +kernel)
theorem tokOf_lower : ∀ c, ∀ x ∈ (tokOf c).text, ¬ (65 ≤ x ∧ x ≤ 90) := forall_u8 (by decide +kernel)
theorem tokOf_len : ∀ c, (tokOf c).text.length ≤ 4 := forall_u8 (by decide +kernel)

theorem human_short (s out : Bytes) (k : Nat) (hk : out.length ≤ 4 * k) (hs : k + s.length ≤ 63) :
    humanLoop out s = some (out ++ labelText (s.map tokOf)) := by
  induction s generalizing out k with
  | nil => simp [humanLoop]
  | cons c s ih =>
    simp only [List.length_cons] at hs
    have step : humanLoop out (c :: s) = humanLoop (out ++ (tokOf c).text) s := by
      by_cases h1 : (c = 46 || c = 92) = true
      · simp only [humanLoop, tokOf, h1, if_true]
        rw [if_neg (by unfold MaxLabel; omega)]; rfl
      · by_cases h2 : (c < 33 || 126 < c) = true
        · simp only [humanLoop, tokOf, h1, h2, if_true, Bool.false_eq_true, if_false]
          rw [if_neg (by unfold MaxLabel; omega)]; rfl
        · by_cases h3 : (65 ≤ c && c ≤ 90) = true
          · simp only [humanLoop, tokOf, h1, h2, h3, if_true, Bool.false_eq_true, if_false]
            rw [if_neg (by unfold MaxLabel; omega)]; rfl
          · simp only [humanLoop, tokOf, h1, h2, h3, Bool.false_eq_true, if_false]
            rw [if_neg (by unfold MaxLabel; omega)]; rfl
    rw [step, ih (out ++ (tokOf c).text) (k + 1) (by have := tokOf_len c; simp; omega) (by omega)]
    simp

theorem human_le (s out r : Bytes) (ho : out.length ≤ 252) (h : humanLoop out s = some r) : r.length ≤ 252 := by
  induction s generalizing out with
  | nil => simp [humanLoop] at h; subst h; exact ho
  | cons c s ih =>
    unfold humanLoop at h
    split at h
    · split at h
      · cases h; exact ho
      · exact ih _ (by simp [MaxLabel] at *; omega) h
    · split at h
      · split at h
        · cases h; exact ho
        · exact ih _ (by simp [MaxLabel] at *; omega) h
      · split at h
        · split at h
          · cases h
          · exact ih _ (by simp [MaxLabel] at *; omega) h
        · split at h
          · cases h; exact ho
          · exact ih _ (by simp [MaxLabel] at *; omega) h

theorem human_no_upper (s out : Bytes) (hs : ∀ c ∈ s, ¬ (65 ≤ c ∧ c ≤ 90)) : (humanLoop out s).isSome = true := by
  induction s generalizing out with
  | nil => simp [humanLoop]
  | cons c s ih =>
    have h1 := hs c (by simp)
    have h2 := fun out => ih out (fun x hx => hs x (by simp [hx]))
    unfold humanLoop
    have h3 : ¬ ((65 ≤ c && c ≤ 90) = true) := by simpa using h1
    rw [if_neg h3]
    split
    · split
      · rfl
      · exact h2 _
    · split
      · split
        · rfl
        · exact h2 _
      · split
        · rfl
        · exact h2 _

/-- `MakeLabel` of the printed form. -/
theorem makeLabel_human (s : Bytes) (hs : s.length ≤ 63) :
    getLabel (labelText (s.map tokOf)) = .ok (s.map toUpper) := by
  have := getLabel_text (l := s.map tokOf) (by intro t ht; simp at ht; obtain ⟨c, _, rfl⟩ := ht; exact tokOf_valid c) false
  simp only [List.length_map, hs, if_true, Bool.false_eq_true, if_false, List.append_nil] at this
  rw [this]
  simp [labelBytes, Function.comp_def, tokOf_byte]

end Verif.Domain
