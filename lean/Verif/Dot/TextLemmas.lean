import Verif.Dot.Text
import Verif.Dot.Lemmas
import Verif.Spec.Graphviz

/-! # Reading the text of Dot -/

namespace Verif.Dot
open Verif.Graphviz Verif.Levels
variable {V D : Type}

/-- What is assumed of `%q`: double quotes around a text with protected quotes, different for different strings. -/
structure Quotes (quote : Bytes → Bytes) : Prop where
  form : ∀ s, ∃ body, Escaped body ∧ quote s = 34 :: (body ++ [34])
  inj : ∀ s s', quote s = quote s' → s = s'

theorem steps_append (st : St) (a b : Bytes) :
    steps st (a ++ b) = (steps st a).bind fun r => (steps r.2 b).map fun r' => (r.1 ++ r'.1, r'.2) := by
  induction a generalizing st with
  | nil => simp [steps]
  | cons c a ih =>
    simp only [List.cons_append, steps]
    cases h : step st c with
    | none => simp
    | some r =>
      obtain ⟨ts, st'⟩ := r
      simp only [ih]
      cases steps st' a with
      | none => simp
      | some q =>
        simp only [Option.bind_some, Option.map_some]
        cases steps q.2 b <;> simp

theorem steps_seq {st st' st'' : St} {a b : Bytes} {x y : List Tok} (h1 : steps st a = some (x, st'))
    (h2 : steps st' b = some (y, st'')) : steps st (a ++ b) = some (x ++ y, st'') := by
  simp [steps_append, h1, h2]

theorem steps_id {s a : Bytes} (h : ∀ c ∈ a, idChar c = true) : steps (.id s) a = some ([], .id (s ++ a)) := by
  induction a generalizing s with
  | nil => simp [steps]
  | cons c a ih =>
    simp only [List.mem_cons, forall_eq_or_imp] at h
    simp [steps, step, h.1, ih h.2]

theorem steps_str {s a : Bytes} (h : Escaped a) : steps (.str s) a = some ([], .str (s ++ a)) := by
  induction h generalizing s with
  | nil => simp [steps]
  | plain h1 h2 _ _ ih => simp [steps, step, h1, h2, ih]
  | esc _ _ ih => simp [steps, step, ih]

theorem _root_.Verif.Graphviz.Escaped.append {a b : Bytes} (ha : Escaped a) (hb : Escaped b) : Escaped (a ++ b) := by
  induction ha with
  | nil => exact hb
  | plain h1 h2 h3 _ ih => exact .plain h1 h2 h3 ih
  | esc h1 _ ih => exact .esc h1 ih

theorem escaped_of_plain {a : Bytes} (h : ∀ c ∈ a, c ≠ 34 ∧ c ≠ 92 ∧ c ≠ 10) : Escaped a := by
  induction a with
  | nil => exact .nil
  | cons c a ih =>
    simp only [List.mem_cons, forall_eq_or_imp] at h
    exact .plain h.1.1 h.1.2.1 h.1.2.2 (ih h.2)

/-- A digit `0`-`9`. -/
def IsDigit (c : UInt8) : Prop := 48 ≤ c ∧ c ≤ 57

theorem isDigit_ofNat {n : Nat} (h : n < 10) : IsDigit (UInt8.ofNat (48 + n)) := by
  have : n = 0 ∨ n = 1 ∨ n = 2 ∨ n = 3 ∨ n = 4 ∨ n = 5 ∨ n = 6 ∨ n = 7 ∨ n = 8 ∨ n = 9 := by omega
  rcases this with rfl|rfl|rfl|rfl|rfl|rfl|rfl|rfl|rfl|rfl <;> exact ⟨by decide, by decide⟩

theorem dec_digits (n : Nat) : ∀ c ∈ dec n, IsDigit c := by
  induction n using Nat.strongRecOn with
  | _ n ih =>
    intro c hc
    rw [dec] at hc
    split at hc
    · rename_i h
      simp only [List.mem_singleton] at hc
      rw [hc]; exact isDigit_ofNat h
    · simp only [List.mem_append, List.mem_singleton] at hc
      rcases hc with hc | rfl
      · exact ih _ (by omega) c hc
      · exact isDigit_ofNat (by omega)

theorem IsDigit.idChar {c : UInt8} (h : IsDigit c) : idChar c = true := by
  simp [Graphviz.idChar, h.1, h.2]

theorem value_snoc (b : Nat) (a : Bytes) (c : UInt8) :
    value b (a ++ [c]) = value b a * b + (if c < 58 then c.toNat - 48 else c.toNat - 87) := by
  simp [value]

theorem digit_value {n : Nat} (h : n < 10) : UInt8.ofNat (48 + n) < 58 ∧ (UInt8.ofNat (48 + n)).toNat - 48 = n := by
  have : n = 0 ∨ n = 1 ∨ n = 2 ∨ n = 3 ∨ n = 4 ∨ n = 5 ∨ n = 6 ∨ n = 7 ∨ n = 8 ∨ n = 9 := by omega
  rcases this with rfl|rfl|rfl|rfl|rfl|rfl|rfl|rfl|rfl|rfl <;> exact ⟨by decide, by decide⟩

theorem dec_value (n : Nat) : value 10 (dec n) = n := by
  induction n using Nat.strongRecOn with
  | _ n ih =>
    rw [dec]
    split
    · rename_i h
      have := digit_value h
      rw [show [UInt8.ofNat (48 + n)] = [] ++ [UInt8.ofNat (48 + n)] from rfl, value_snoc, if_pos this.1, this.2]
      simp [value]
    · have := digit_value (n := n % 10) (by omega)
      rw [value_snoc, ih _ (by omega), if_pos this.1, this.2]
      omega

theorem hexDigit_cases {n : Nat} (h : n < 16) : n = 0 ∨ n = 1 ∨ n = 2 ∨ n = 3 ∨ n = 4 ∨ n = 5 ∨ n = 6 ∨ n = 7 ∨ n = 8 ∨ n = 9 ∨
    n = 10 ∨ n = 11 ∨ n = 12 ∨ n = 13 ∨ n = 14 ∨ n = 15 := by omega

theorem hexDigit_value {n : Nat} (h : n < 16) :
    (if hexDigit n < 58 then (hexDigit n).toNat - 48 else (hexDigit n).toNat - 87) = n := by
  rcases hexDigit_cases h with rfl|rfl|rfl|rfl|rfl|rfl|rfl|rfl|rfl|rfl|rfl|rfl|rfl|rfl|rfl|rfl <;> decide

theorem hexDigit_plain {n : Nat} (h : n < 16) : hexDigit n ≠ 34 ∧ hexDigit n ≠ 92 ∧ hexDigit n ≠ 10 ∧ hexDigit n ≠ 44 := by
  rcases hexDigit_cases h with rfl|rfl|rfl|rfl|rfl|rfl|rfl|rfl|rfl|rfl|rfl|rfl|rfl|rfl|rfl|rfl <;> decide

theorem hex_length (w n : Nat) : (hex w n).length = w := by
  induction w generalizing n with
  | zero => rfl
  | succ w ih => simp [hex, ih]

theorem hex_value (w n : Nat) (h : n < 16 ^ w) : value 16 (hex w n) = n := by
  induction w generalizing n with
  | zero => simp at h; simp [hex, value, h]
  | succ w ih =>
    rw [hex, value_snoc, ih _ (by rw [Nat.pow_succ] at h; omega), hexDigit_value (by omega)]
    omega

theorem hex_plain (w n : Nat) : ∀ c ∈ hex w n, c ≠ 34 ∧ c ≠ 92 ∧ c ≠ 10 ∧ c ≠ 44 := by
  induction w generalizing n with
  | zero => simp [hex]
  | succ w ih =>
    intro c hc
    simp only [hex, List.mem_append, List.mem_singleton] at hc
    rcases hc with hc | rfl
    · exact ih _ c hc
    · exact hexDigit_plain (by omega)

theorem IsDigit.plain {c : UInt8} (h : IsDigit c) : c ≠ 34 ∧ c ≠ 92 ∧ c ≠ 10 := by
  refine ⟨?_, ?_, ?_⟩ <;> rintro rfl <;> exact absurd h (by simp [IsDigit])

theorem dec_escaped (n : Nat) : Escaped (dec n) := escaped_of_plain fun c hc => (dec_digits n c hc).plain

theorem hex_escaped (w n : Nat) : Escaped (hex w n) :=
  escaped_of_plain fun c hc => ⟨(hex_plain w n c hc).1, (hex_plain w n c hc).2.1, (hex_plain w n c hc).2.2.1⟩

/-- The name of a node. -/
def nodeName (i : Nat) : Bytes := 78 :: dec i

/-- The words of a line, given those of a `dotString`. -/
def lineToks (dt : Option D → List Tok) : Line D → List Tok
  | .node i d => [.id (nodeName i)] ++ dt d
  | .edge i a b => [.id (nodeName i), .arrow, .lbrace, .id (nodeName a), .id (nodeName b), .rbrace]

/-- `ds` writes the words `dt`, in brackets. -/
def Writes (ds : Option D → Bytes) (dt : Option D → List Tok) : Prop :=
  ∀ d, ∃ rest, ds d = 91 :: rest ∧ steps .out (91 :: rest) = some (dt d, .out)

theorem steps_name (i : Nat) : steps .out (nodeName i) = some ([], .id (nodeName i)) := by
  simp only [nodeName, steps, step]
  have : stepOut 78 = some ([], .id [78]) := by decide
  simp [this, steps_id (fun c hc => (dec_digits i c hc).idChar)]

theorem lineText_steps {ds : Option D → Bytes} {dt : Option D → List Tok} (hw : Writes ds dt) (l : Line D) :
    steps .out (lineText ds l) = some (lineToks dt l, .out) := by
  cases l with
  | node i d =>
    obtain ⟨rest, e, h⟩ := hw d
    have h0 := steps_name i
    have h1 : steps (.id (nodeName i)) (ascii " ") = some ([.id (nodeName i)], .out) := by
      simp [ascii, steps, step, stepOut, idChar]
    have h2 : steps .out (ascii "\n") = some ([], .out) := by decide
    have := steps_seq (steps_seq (steps_seq h0 h1) (e ▸ h)) h2
    simpa [lineText, lineToks, nodeName, ascii, e] using this
  | edge i a b =>
    have h1 : steps (.id (nodeName i)) (ascii " -> { ") = some ([.id (nodeName i), .arrow, .lbrace], .out) := by
      simp [ascii, steps, step, stepOut, idChar]
    have h2 : steps (.id (nodeName a)) (ascii " ") = some ([.id (nodeName a)], .out) := by
      simp [ascii, steps, step, stepOut, idChar]
    have h3 : steps (.id (nodeName b)) (ascii " }\n") = some ([.id (nodeName b), .rbrace], .out) := by
      simp [ascii, steps, step, stepOut, idChar]
    have := steps_seq (steps_seq (steps_seq (steps_seq (steps_seq (steps_name i) h1) (steps_name a)) h2) (steps_name b)) h3
    simpa [lineText, lineToks, nodeName, ascii] using this

theorem frame_words {ds : Option D → Bytes} {dt : Option D → List Tok} (hw : Writes ds dt) (ls : List (Line D)) :
    words (frame ds ls) =
      some ([.id (ascii "digraph"), .id (ascii "d"), .lbrace] ++ ls.flatMap (lineToks dt) ++ [.rbrace]) := by
  have h0 : steps .out (ascii "digraph d {\n") = some ([.id (ascii "digraph"), .id (ascii "d"), .lbrace], .out) := by
    decide +kernel
  have h2 : steps .out (ascii "}\n") = some ([.rbrace], .out) := by decide
  have h1 : steps .out (ls.flatMap (lineText ds)) = some (ls.flatMap (lineToks dt), .out) := by
    induction ls with
    | nil => rfl
    | cons l ls ih => exact steps_seq (lineText_steps hw l) ih
  have := steps_seq (steps_seq h0 h1) h2
  simp only [words, frame, this]

/-! ## Each `dotString` -/

theorem inner_form {P : Printer V} (hq : Quotes P.quote) (s : Bytes) :
    Escaped (inner P s) ∧ P.quote s = 34 :: (inner P s ++ [34]) := by
  obtain ⟨body, h1, h2⟩ := hq.form s
  have : inner P s = body := by simp [inner, h2]
  exact ⟨this ▸ h1, by rw [this, h2]⟩

theorem inner_inj {P : Printer V} (hq : Quotes P.quote) {s s' : Bytes} (h : inner P s = inner P s') : s = s' :=
  hq.inj _ _ (by rw [(inner_form hq s).2, (inner_form hq s').2, h])

/-- `[label="…"` and more attributes `]`. -/
def attrs (label : Bytes) (more : List Tok) : List Tok := [.lbrack, .id (ascii "label"), .eq, .str label] ++ more ++ [.rbrack]

theorem steps_attrs {label more : Bytes} {ts : List Tok} (hl : Escaped label)
    (hm : steps .out (more ++ [93]) = some (ts ++ [.rbrack], .out)) :
    steps .out (ascii "[label=\"" ++ label ++ ascii "\"" ++ (more ++ [93])) = some (attrs label ts, .out) := by
  have h0 : steps .out (ascii "[label=\"") = some ([.lbrack, .id (ascii "label"), .eq], .str []) := by decide +kernel
  have h1 : steps (.str label) (ascii "\"") = some ([.str label], .out) := by
    simp [ascii, steps, step]
  have := steps_seq (steps_seq (steps_seq h0 (steps_str hl)) h1) hm
  simpa [attrs] using this

/-- The label of a numtree node. -/
def numLabel (P : Printer V) {w : Nat} : Option (Num.ND w V) → Bytes
  | none => ascii "nil"
  | some n => ascii "k: " ++ hex (w / 4) n.key.toNat ++ ascii ", b: " ++ dec n.bits ++
      (if n.leaf then ascii ", v: \\\"" ++ inner P (P.goSyntax n.value) ++ ascii "\\\"" else [])

theorem esc_lit_q : Escaped (ascii "\\\"") := by
  rw [show ascii "\\\"" = [92, 34] by decide]
  exact .esc (by decide) .nil

theorem esc_lit_v : Escaped (ascii ", v: \\\"") := by
  rw [show ascii ", v: \\\"" = ascii ", v: " ++ ascii "\\\"" by decide +kernel]
  exact (escaped_of_plain (by decide)).append esc_lit_q

theorem numLabel_escaped {P : Printer V} (hq : Quotes P.quote) {w : Nat} (d : Option (Num.ND w V)) : Escaped (numLabel P d) := by
  cases d with
  | none => exact escaped_of_plain (a := ascii "nil") (by decide)
  | some n =>
    refine Escaped.append (Escaped.append (Escaped.append (Escaped.append (escaped_of_plain (by decide)) (hex_escaped _ _))
      (escaped_of_plain (by decide))) (dec_escaped _)) ?_
    split
    · exact (esc_lit_v.append (inner_form hq _).1).append esc_lit_q
    · exact .nil

theorem numWrites {P : Printer V} (hq : Quotes P.quote) {w : Nat} :
    Writes (numDotString P (w := w)) (fun d => attrs (numLabel P d) []) := by
  intro d
  have h := steps_attrs (numLabel_escaped hq d) (more := []) (ts := []) (by decide)
  have e : numDotString P d = ascii "[label=\"" ++ numLabel P d ++ ascii "\"" ++ ([] ++ [93]) := by
    cases d with
    | none => simp [numDotString, numLabel, ascii]
    | some n => cases hl : n.leaf <;> simp [numDotString, numLabel, hl, ascii]
  refine ⟨(numDotString P d).tail, ?_, ?_⟩
  · rw [e]; simp [ascii]
  · rw [← h, e]; simp [ascii]

/-- The label of a strtree or dltree node. -/
def strLabel (P : Printer V) : Option (RB.RD Bytes V) → Bytes
  | none => ascii "nil"
  | some n => if P.isNil n.value then inner P n.key
      else ascii "k: \\\"" ++ inner P n.key ++ ascii "\\\" v: \\\"" ++ inner P (P.goSyntax n.value) ++ ascii "\\\""

/-- The colours of a node. -/
def colorToks (red : Bool) : List Tok :=
  [.id (ascii "style"), .eq, .id (ascii "filled")] ++
    (if red then [.id (ascii "fillcolor"), .eq, .id (ascii "red")]
     else [.id (ascii "fontcolor"), .eq, .id (ascii "white"), .id (ascii "fillcolor"), .eq, .id (ascii "black")])

/-- Black for nil. -/
def redOf : Option (RB.RD Bytes V) → Bool
  | none => false
  | some n => n.red

theorem esc_lit_k : Escaped (ascii "k: \\\"") := by
  rw [show ascii "k: \\\"" = ascii "k: " ++ ascii "\\\"" by decide +kernel]
  exact (escaped_of_plain (by decide)).append esc_lit_q

theorem esc_lit_kv : Escaped (ascii "\\\" v: \\\"") := by
  rw [show ascii "\\\" v: \\\"" = ascii "\\\"" ++ ascii " v: " ++ ascii "\\\"" by decide +kernel]
  exact (esc_lit_q.append (escaped_of_plain (by decide))).append esc_lit_q

theorem strLabel_escaped {P : Printer V} (hq : Quotes P.quote) (d : Option (RB.RD Bytes V)) : Escaped (strLabel P d) := by
  cases d with
  | none => exact escaped_of_plain (a := ascii "nil") (by decide)
  | some n =>
    simp only [strLabel]
    split
    · exact (inner_form hq _).1
    · exact (((esc_lit_k.append (inner_form hq _).1).append esc_lit_kv).append (inner_form hq _).1).append esc_lit_q

theorem steps_color (red : Bool) :
    steps .out (ascii " style=filled " ++ color red ++ [93]) = some (colorToks red ++ [.rbrack], .out) := by
  cases red <;> decide +kernel

theorem strWrites {P : Printer V} (hq : Quotes P.quote) :
    Writes (strDotString P) (fun d => attrs (strLabel P d) (colorToks (redOf d))) := by
  intro d
  have h := steps_attrs (strLabel_escaped hq d) (steps_color (redOf d))
  have e : strDotString P d = ascii "[label=\"" ++ strLabel P d ++ ascii "\"" ++ (ascii " style=filled " ++ color (redOf d) ++ [93]) := by
    cases d with
    | none => simp [strDotString, strLabel, ascii, color, redOf]
    | some n =>
      have := (inner_form hq n.key).2
      cases hl : P.isNil n.value
      · simp only [strDotString, strLabel, hl, inner, redOf]; simp [ascii]
      · simp only [strDotString, strLabel, hl, redOf, if_true, this]; simp [ascii]
  refine ⟨(strDotString P d).tail, ?_, ?_⟩
  · rw [e]; simp [ascii]
  · rw [← h, e]; simp [ascii]

/-- uintX trees print like trees with values that are not nil and have a plain text. -/
def uintPrinter (quote : Bytes → Bytes) : Printer Nat := ⟨quote, fun _ => [], fun _ => false⟩

/-- The label of a node of a uintX strtree. -/
def uintLabel (quote : Bytes → Bytes) : Option (RB.RD Bytes Nat) → Bytes
  | none => ascii "nil"
  | some n => ascii "k: \\\"" ++ inner (uintPrinter quote) n.key ++ ascii "\\\" v: \\\"" ++ dec n.value ++ ascii "\\\""

theorem uintLabel_escaped {quote : Bytes → Bytes} (hq : Quotes quote) (d : Option (RB.RD Bytes Nat)) : Escaped (uintLabel quote d) := by
  cases d with
  | none => exact escaped_of_plain (a := ascii "nil") (by decide)
  | some n =>
    exact (((esc_lit_k.append (inner_form (P := uintPrinter quote) hq _).1).append esc_lit_kv).append (dec_escaped _)).append esc_lit_q

theorem uintWrites {quote : Bytes → Bytes} (hq : Quotes quote) :
    Writes (uintDotString quote) (fun d => attrs (uintLabel quote d) (colorToks (redOf d))) := by
  intro d
  have h := steps_attrs (uintLabel_escaped hq d) (steps_color (redOf d))
  have e : uintDotString quote d = ascii "[label=\"" ++ uintLabel quote d ++ ascii "\"" ++ (ascii " style=filled " ++ color (redOf d) ++ [93]) := by
    cases d with
    | none => simp [uintDotString, uintLabel, ascii, color, redOf]
    | some n => simp only [uintDotString, uintLabel, inner, uintPrinter, redOf]; simp [ascii]
  refine ⟨(uintDotString quote d).tail, ?_, ?_⟩
  · rw [e]; simp [ascii]
  · rw [← h, e]; simp [ascii]

end Verif.Dot
