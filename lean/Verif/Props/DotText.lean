import Verif.Dot.Decode
import Verif.Dot.Quote
import Verif.Props.Dot

/-! # The text of Dot -/

namespace Verif.Props
open Verif Verif.Dot Verif.Levels Verif.Graphviz
variable {V D : Type}

/-- The words are a drawing of the tree: the frame, and for each drawn position in breadth-first order a statement with its
number and attributes, followed by the arrows to its children if it has a child. -/
def Drawing (t : BTree D) (name : Nat → Bytes) (attributes : Option D → List Tok) (ws : List Tok) : Prop :=
  ∃ slots : List Pos, (∀ p, p ∈ slots ↔ Drawn t p) ∧ slots.Pairwise Before ∧
    ∃ stmts : Pos → List Tok, ws = [.id (ascii "digraph"), .id (ascii "d"), .lbrace] ++ slots.flatMap stmts ++ [.rbrace] ∧
      ∀ i p, slots[i]? = some p →
        (¬ HasKids t p → stmts p = [.id (name i)] ++ attributes (dataAt t p)) ∧
        (HasKids t p → ∃ a b, slots[a]? = some (p ++ [false]) ∧ slots[b]? = some (p ++ [true]) ∧
          stmts p = [.id (name i)] ++ attributes (dataAt t p) ++
            [.id (name i), .arrow, .lbrace, .id (name a), .id (name b), .rbrace])

/-- Names are `N` and the decimal number. -/
def Names (name : Nat → Bytes) : Prop :=
  ∀ i, ∃ ds, name i = 78 :: ds ∧ value 10 ds = i ∧ ds ≠ [] ∧ ∀ c ∈ ds, 48 ≤ c ∧ c ≤ 57

/-- `[label="…"` and further attributes `]`. -/
def Attributes (label : Bytes) (more : List Tok) : List Tok := [.lbrack, .id (ascii "label"), .eq, .str label] ++ more ++ [.rbrack]

/-- The colours: black or red filling. -/
def Colours (red : Bool) : List Tok :=
  [.id (ascii "style"), .eq, .id (ascii "filled")] ++
    (if red then [.id (ascii "fillcolor"), .eq, .id (ascii "red")]
     else [.id (ascii "fontcolor"), .eq, .id (ascii "white"), .id (ascii "fillcolor"), .eq, .id (ascii "black")])

theorem names_nodeName : Names nodeName := by
  intro i
  refine ⟨dec i, rfl, dec_value i, ?_, dec_digits i⟩
  rw [dec]; split <;> simp

theorem drawing {ds : Option D → Bytes} {dt : Option D → List Tok} (hw : Writes ds dt) (t : BTree D) :
    ∃ ls ws, dot t = some ls ∧ words (frame ds ls) = some ws ∧ Drawing t nodeName dt ws := by
  obtain ⟨slots, h1, h2, f, e, h3⟩ := C51_dot t
  refine ⟨_, _, e, frame_words hw _, slots, h1, h2, fun p => (f p).flatMap (lineToks dt), ?_, ?_⟩
  · simp [List.flatMap_assoc]
  · intro i p hi
    refine ⟨fun hk => ?_, fun hk => ?_⟩
    · simp [(h3 i p hi).1 hk, lineToks]
    · obtain ⟨a, b, ha, hb, e⟩ := (h3 i p hi).2 hk
      exact ⟨a, b, ha, hb, by simp [e, lineToks]⟩

/-- C71, numtree: the dump is made of words of the DOT language and these are the drawing of the tree, with keys, bits and
values in the labels, whatever the values are. -/
theorem C71_numtree (P : Printer V) (hq : Quotes P.quote) {w : Nat} (hw : 4 ∣ w) (t : Num.NTree w V) :
    ∃ text ws name, ∃ label : Option (Num.ND w V) → Bytes, numText P t = some text ∧ words text = some ws ∧ Names name ∧
      Drawing t name (fun d => Attributes (label d) []) ws ∧ label none = ascii "nil" ∧
      ∀ n : Num.ND w V, ∃ k b, k.length = w / 4 ∧ value 16 k = n.key.toNat ∧ value 10 b = n.bits ∧
        (n.leaf = false → label (some n) = ascii "k: " ++ k ++ ascii ", b: " ++ b) ∧
        (n.leaf = true → ∃ v, P.quote (P.goSyntax n.value) = [34] ++ v ++ [34] ∧
          label (some n) = ascii "k: " ++ k ++ ascii ", b: " ++ b ++ ascii ", v: \\\"" ++ v ++ ascii "\\\"") := by
  obtain ⟨ls, ws, e1, e2, h⟩ := drawing (numWrites hq) t
  refine ⟨_, ws, nodeName, numLabel P, by rw [numText, e1]; rfl, e2, names_nodeName, h, rfl, ?_⟩
  intro n
  refine ⟨hex (w / 4) n.key.toNat, dec n.bits, hex_length _ _, hex_value _ _ (pow_key hw _), dec_value _, ?_, ?_⟩
  · intro hl; simp [numLabel, hl]
  · intro hl
    exact ⟨inner P (P.goSyntax n.value), by simpa using (inner_form hq _).2, by simp [numLabel, hl]⟩

/-- C71, strtree and dltree. -/
theorem C71_redblack (P : Printer V) (hq : Quotes P.quote) :
    ∃ name, ∃ label : Option (RB.RD Bytes V) → Bytes, Names name ∧
      (∀ t : Strtree.Tree V, ∃ text ws, strText P (some t) = some text ∧ words text = some ws ∧
        Drawing t.root name (fun d => Attributes (label d) (Colours (d.any (·.red)))) ws) ∧
      (∀ t : DL.Tree V, ∃ text ws, dlText P (some t) = some text ∧ words text = some ws ∧
        Drawing t.root name (fun d => Attributes (label d) (Colours (d.any (·.red)))) ws) ∧
      label none = ascii "nil" ∧
      ∀ n : RB.RD Bytes V, ∃ k, P.quote n.key = [34] ++ k ++ [34] ∧
        (P.isNil n.value = true → label (some n) = k) ∧
        (P.isNil n.value = false → ∃ v, P.quote (P.goSyntax n.value) = [34] ++ v ++ [34] ∧
          label (some n) = ascii "k: \\\"" ++ k ++ ascii "\\\" v: \\\"" ++ v ++ ascii "\\\"") := by
  have er : (fun d : Option (RB.RD Bytes V) => attrs (strLabel P d) (colorToks (redOf d))) =
      fun d => Attributes (strLabel P d) (Colours (d.any (·.red))) := by
    funext d; cases d <;> rfl
  refine ⟨nodeName, strLabel P, names_nodeName, fun t => ?_, fun t => ?_, rfl, fun n => ?_⟩
  · obtain ⟨ls, ws, e1, e2, h⟩ := drawing (strWrites hq) t.root
    exact ⟨_, ws, by rw [strText, strtreeDot, e1]; rfl, e2, er ▸ h⟩
  · obtain ⟨ls, ws, e1, e2, h⟩ := drawing (strWrites hq) t.root
    exact ⟨_, ws, by rw [dlText, dltreeDot, e1]; rfl, e2, er ▸ h⟩
  · refine ⟨inner P n.key, by simpa using (inner_form hq _).2, fun hn => by simp [strLabel, hn], fun hn => ?_⟩
    exact ⟨inner P (P.goSyntax n.value), by simpa using (inner_form hq _).2, by simp [strLabel, hn]⟩

/-- C71, the strtrees of uintX. -/
theorem C71_uint (quote : Bytes → Bytes) (hq : Quotes quote) :
    ∃ name, ∃ label : Option (RB.RD Bytes Nat) → Bytes, Names name ∧
      (∀ t : Strtree.Tree Nat, ∃ text ws, uintText quote (some t) = some text ∧ words text = some ws ∧
        Drawing t.root name (fun d => Attributes (label d) (Colours (d.any (·.red)))) ws) ∧
      label none = ascii "nil" ∧
      ∀ n : RB.RD Bytes Nat, ∃ k v, quote n.key = [34] ++ k ++ [34] ∧ value 10 v = n.value ∧
        label (some n) = ascii "k: \\\"" ++ k ++ ascii "\\\" v: \\\"" ++ v ++ ascii "\\\"" := by
  have er : (fun d : Option (RB.RD Bytes Nat) => attrs (uintLabel quote d) (colorToks (redOf d))) =
      fun d => Attributes (uintLabel quote d) (Colours (d.any (·.red))) := by
    funext d; cases d <;> rfl
  refine ⟨nodeName, uintLabel quote, names_nodeName, fun t => ?_, rfl, fun n => ?_⟩
  · obtain ⟨ls, ws, e1, e2, h⟩ := drawing (uintWrites hq) t.root
    exact ⟨_, ws, by rw [uintText, strtreeDot, e1]; rfl, e2, er ▸ h⟩
  · exact ⟨inner (uintPrinter quote) n.key, dec n.value, by simpa [uintPrinter] using (inner_form (P := uintPrinter quote) hq n.key).2,
      dec_value _, by simp [uintLabel]⟩

/-- C71: a nil strtree or dltree is drawn without any node. -/
theorem C71_nil (P : Printer V) : strText P none = some (ascii "digraph d {\n}\n") ∧ dlText P none = some (ascii "digraph d {\n}\n") := by
  have : ascii "digraph d {\n" ++ ascii "}\n" = ascii "digraph d {\n}\n" := by decide +kernel
  constructor <;> simp [strText, dlText, strtreeDot, dltreeDot, frame, this]

/-! ## The text determines the tree -/

theorem same_text {E : Type} {ds : Option D → Bytes} {dt : Option D → List Tok} (hw : Writes ds dt) (hb : Bracketed dt)
    {good : Option D → Prop} {f : D → E} (hinj : ∀ d d', good d → good d' → dt d = dt d' → d.map f = d'.map f)
    (t u : BTree D) (ht : ∀ p, good (dataAt t p)) (hu : ∀ p, good (dataAt u p))
    (h : (dot t).map (frame ds) = (dot u).map (frame ds)) : t.map f = u.map f := by
  obtain ⟨lt, et⟩ : ∃ L, dot t = some L := (dot_spec t).elim fun _ h => ⟨_, h.2⟩
  obtain ⟨lu, eu⟩ : ∃ L, dot u = some L := (dot_spec u).elim fun _ h => ⟨_, h.2⟩
  rw [et, eu] at h
  simp only [Option.map_some, Option.some.injEq] at h
  have hws := (frame_words hw lt).symm.trans ((congrArg words h).trans (frame_words hw lu))
  simp only [Option.some.injEq, List.append_assoc] at hws
  have hws := List.append_cancel_left hws
  have := decode hb hinj lt lu
    (fun i d hd => by obtain ⟨p, rfl⟩ := dot_nodes et hd; exact ht p)
    (fun i d hd => by obtain ⟨p, rfl⟩ := dot_nodes eu hd; exact hu p) hws
  exact C51_determines _ _ (by rw [dot_map, dot_map, et, eu]; simp [this])

/-- C72, numtree: trees with the same dump have the same shape, keys and bits, and their values the same `%#v` text. -/
theorem C72_numtree (P : Printer V) (hq : Quotes P.quote) {w : Nat} (hw : 4 ∣ w) (t u : Num.NTree w V)
    (h : numText P t = numText P u) :
    t.map (fun n => (n.key, n.bits, if n.leaf then some (P.goSyntax n.value) else none)) =
      u.map (fun n => (n.key, n.bits, if n.leaf then some (P.goSyntax n.value) else none)) := by
  refine same_text (numWrites hq) (attrs_bracketed _ _ (by simp)) (good := fun _ => True) (f := numView P) ?_ t u
    (fun _ => trivial) (fun _ => trivial) h
  intro d d' _ _ e
  simp only [attrs, List.cons_append, List.nil_append, List.cons.injEq, Tok.str.injEq, true_and] at e
  exact numLabel_inj hq hw d d' e.1

theorem attrs_inj {l l' : Bytes} {r r' : Bool} (h : attrs l (colorToks r) = attrs l' (colorToks r')) : l = l' ∧ r = r' := by
  simp only [attrs, List.cons_append, List.nil_append, List.cons.injEq, Tok.str.injEq, true_and] at h
  refine ⟨h.1, ?_⟩
  have := List.append_cancel_right h.2
  revert this
  cases r <;> cases r' <;> decide +kernel

/-- C72, uintX strtrees: the dump determines the tree, up to the comparison. -/
theorem C72_uint (quote : Bytes → Bytes) (hq : Quotes quote) (t u : Strtree.Tree Nat)
    (h : uintText quote (some t) = uintText quote (some u)) : t.root = u.root := by
  have := same_text (uintWrites hq) (attrs_bracketed _ _ (fun _ => colorToks_rbrack _)) (good := fun _ => True) (f := id)
    (fun d d' _ _ e => by
      obtain ⟨e1, e2⟩ := attrs_inj e
      rw [uintLabel_inj hq d d' e1 e2]) t.root u.root (fun _ => trivial) (fun _ => trivial) h
  have hid : ∀ t : BTree (RB.RD Bytes Nat), t.map id = t := by
    intro t; induction t with
    | nil => rfl
    | node d l r ihl ihr => simp [BTree.map, ihl, ihr]
  rwa [hid, hid] at this

theorem redblack_text (P : Printer V) (hq : Quotes P.quote) (t u : RB.RTree Bytes V)
    (ht : ∀ kv ∈ RB.enumerate t, Plain P kv.2) (hu : ∀ kv ∈ RB.enumerate u, Plain P kv.2)
    (h : (dot t).map (frame (strDotString P)) = (dot u).map (frame (strDotString P))) : t.map (strView P) = u.map (strView P) :=
  same_text (strWrites hq) (attrs_bracketed _ _ (fun _ => colorToks_rbrack _))
    (good := fun d => ∀ n, d = some n → Plain P n.value)
    (fun d d' hd hd' e => by
      obtain ⟨e1, e2⟩ := attrs_inj e
      exact strLabel_inj hq d d' hd hd' e1 e2) t u
    (fun p n e => ht _ (dataAt_mem t p n e)) (fun p n e => hu _ (dataAt_mem u p n e)) h

/-- C72, strtree and dltree, for values that are not nil and do not print with ` v: "` inside.  Missing: nil values and
values with such a text, for which it is false (`C72_ambiguous`). -/
theorem C72_redblack_partial (P : Printer V) (hq : Quotes P.quote) :
    (∀ t u : Strtree.Tree V, (∀ kv ∈ Strtree.Enumerate (some t), Plain P kv.2) → (∀ kv ∈ Strtree.Enumerate (some u), Plain P kv.2) →
      strText P (some t) = strText P (some u) →
      t.root.map (fun n => (n.key, P.goSyntax n.value, n.red)) = u.root.map (fun n => (n.key, P.goSyntax n.value, n.red))) ∧
    (∀ t u : DL.Tree V, (∀ kv ∈ DL.RawEnumerate (some t), Plain P kv.2) → (∀ kv ∈ DL.RawEnumerate (some u), Plain P kv.2) →
      dlText P (some t) = dlText P (some u) →
      t.root.map (fun n => (n.key, P.goSyntax n.value, n.red)) = u.root.map (fun n => (n.key, P.goSyntax n.value, n.red))) :=
  ⟨fun t u ht hu h => redblack_text P hq t.root u.root ht hu h, fun t u ht hu h => redblack_text P hq t.root u.root ht hu h⟩

/-- C71, C72: `strconv.Quote`, which is what `%q` does with a string, is such a quoting, whatever the table of printable characters says
(about anything but the line feed). -/
theorem C71_strconv (isPrint : Nat → Bool) (hp : isPrint 10 = false) : Quotes (strconvQuote isPrint) := strconvQuote_ok hp

/-- Printable ASCII; enough of `strconv.IsPrint` for the cases below. -/
def asciiPrint (r : Nat) : Bool := 32 ≤ r && r < 127

example : strconvQuote asciiPrint (ascii "a\"b\\\n" ++ [0, 127, 0xC3, 0xA9, 0xFF, 0xC3, 0xF0, 0x9F, 0x98, 0x80]) =
    ascii "\"a\\\"b\\\\\\n\\x00\\x7f\\u00e9\\xff\\xc3\\U0001f600\"" := by decide +kernel

/-- A printer for `interface{}` values that are nil or numbers below ten. -/
def smallPrinter : Printer (Option (Fin 10)) where
  quote := strconvQuote asciiPrint
  goSyntax v := match v with
    | none => ascii "<nil>"
    | some n => dec n.val
  isNil v := v.isNone

/-- C72 is false in general: an empty strtree or dltree is drawn like one with the single key "nil" and the value nil. -/
theorem C72_ambiguous : ∃ (P : Printer (Option (Fin 10))) (t u : Strtree.Tree (Option (Fin 10))), Quotes P.quote ∧
    some (some t) = (Strtree.Insert Strtree.NewTree (ascii "nil") none) ∧ some u = Strtree.NewTree ∧
    strText P (some t) = strText P (some u) ∧ Strtree.Enumerate (some t) ≠ Strtree.Enumerate (some u) :=
  ⟨smallPrinter, ⟨.node ⟨ascii "nil", none, false⟩ .nil .nil, compareBytes⟩, ⟨.nil, compareBytes⟩, C71_strconv _ rfl, rfl, rfl,
    by decide +kernel, by decide⟩

/-- The same for dltree, whose key is the label NIL. -/
theorem C72_ambiguous_dltree : ∃ (P : Printer (Option (Fin 10))) (t u : DL.Tree (Option (Fin 10))), Quotes P.quote ∧
    some (some t) = DL.RawInsert DL.NewTree (ascii "nil") none ∧ some u = DL.NewTree ∧
    dlText P (some t) = dlText P (some u) ∧ DL.RawEnumerate (some t) ≠ DL.RawEnumerate (some u) :=
  ⟨smallPrinter, ⟨.node ⟨ascii "nil", none, false⟩ .nil .nil⟩, ⟨.nil⟩, C71_strconv _ rfl, rfl, rfl,
    by decide +kernel, by decide⟩

/-- A key with quotes, a backslash and brackets does not break out of its label. -/
example : (strText smallPrinter (some ⟨.node ⟨ascii "a\"]}\\", some 7, true⟩ .nil .nil, compareBytes⟩)).map words = some (some
    ([.id (ascii "digraph"), .id (ascii "d"), .lbrace, .id (ascii "N0"), .lbrack, .id (ascii "label"), .eq,
      .str (ascii "k: \\\"a\\\"]}\\\\\\\" v: \\\"7\\\""), .id (ascii "style"), .eq, .id (ascii "filled"), .id (ascii "fillcolor"),
      .eq, .id (ascii "red"), .rbrack, .rbrace])) := by decide +kernel

/-- Text of a numtree with one leaf. -/
example : numText smallPrinter (.node ⟨0x0a000000#32, 8, true, some 3⟩ .nil .nil) =
    some (ascii "digraph d {\nN0 [label=\"k: 0a000000, b: 8, v: \\\"3\\\"\"]\n}\n") := by decide +kernel

/-- Numbers are plain values. -/
example : Plain smallPrinter (some 7) := by
  refine ⟨rfl, ?_⟩
  rw [show inner smallPrinter (smallPrinter.goSyntax (some 7)) = [55] by decide +kernel, ascii_sv]
  rintro ⟨s, t, e⟩
  have := congrArg List.length e
  simp at this
  omega

end Verif.Props
