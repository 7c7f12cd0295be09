import Verif.Dot.TextLemmas
import Verif.Num.Map

/-! # Back from the words to the tree -/

namespace Verif.Dot
open Verif.Graphviz Verif.Levels
variable {V D E : Type}

/-- A line with its payload seen through `f`. -/
def Line.map (f : D → E) : Line D → Line E
  | .node i d => .node i (d.map f)
  | .edge i a b => .edge i a b

theorem dotLoop_map (f : D → E) (fuel i : Nat) (q : List (BTree D)) :
    dotLoop fuel i (q.map (BTree.map f)) = (dotLoop fuel i q).map (List.map (Line.map f)) := by
  induction fuel generalizing i q with
  | zero => rfl
  | succ fuel ih =>
    cases q with
    | nil => rfl
    | cons c rest =>
      cases c with
      | nil =>
        simp only [List.map_cons, BTree.map, dotLoop, ih]
        cases dotLoop fuel (i + 1) rest <;> simp [Line.map]
      | node d l r =>
        have e : ∀ t : BTree D, (BTree.map f t).isNil = t.isNil := by intro t; cases t <;> rfl
        simp only [List.map_cons, BTree.map, dotLoop, e]
        split
        · have := ih (i + 1) (rest ++ [l] ++ [r])
          simp only [List.map_append, List.map_cons, List.map_nil] at this
          rw [this]
          cases dotLoop fuel (i + 1) (rest ++ [l] ++ [r]) <;> simp [Line.map]
        · rw [ih]
          cases dotLoop fuel (i + 1) rest <;> simp [Line.map]

theorem size_map (f : D → E) (t : BTree D) : (BTree.map f t).size = t.size := by
  induction t with
  | nil => rfl
  | node d l r ihl ihr => simp [BTree.map, BTree.size, ihl, ihr]

theorem dot_map (f : D → E) (t : BTree D) : dot (BTree.map f t) = (dot t).map (List.map (Line.map f)) := by
  have := dotLoop_map f (2 * t.size + 2) 0 [t]
  simpa [dot, size_map] using this

theorem dec_inj {a b : Nat} (h : dec a = dec b) : a = b := by rw [← dec_value a, h, dec_value]

theorem nodeName_inj {a b : Nat} (h : nodeName a = nodeName b) : a = b := by
  simp only [nodeName, List.cons.injEq, true_and] at h; exact dec_inj h

/-- Cutting at the first closing bracket. -/
theorem cut_rbrack {a b x y : List Tok} (ha : Tok.rbrack ∉ a) (hb : Tok.rbrack ∉ b)
    (h : a ++ .rbrack :: x = b ++ .rbrack :: y) : a = b ∧ x = y := by
  induction a generalizing b with
  | nil =>
    cases b with
    | nil => simpa using h
    | cons c b => simp at h; exact absurd h.1 (fun e => by simp [← e] at hb)
  | cons c a ih =>
    cases b with
    | nil => simp at h; exact absurd h.1.symm (fun e => by simp [← e] at ha)
    | cons c' b =>
      simp only [List.cons_append, List.cons.injEq] at h
      obtain ⟨rfl, h⟩ := h
      simp only [List.mem_cons, not_or] at ha hb
      obtain ⟨rfl, rfl⟩ := ih ha.2 hb.2 h
      exact ⟨rfl, rfl⟩

/-- The form of the words of a node. -/
def Bracketed (dt : Option D → List Tok) : Prop := ∀ d, ∃ mid, dt d = .lbrack :: (mid ++ [.rbrack]) ∧ Tok.rbrack ∉ mid

/-- All nodes of the lines are good. -/
def AllGood (good : Option D → Prop) (ls : List (Line D)) : Prop := ∀ i d, Line.node i d ∈ ls → good d

theorem decode {dt : Option D → List Tok} (hb : Bracketed dt) {good : Option D → Prop} {f : D → E}
    (hinj : ∀ d d', good d → good d' → dt d = dt d' → d.map f = d'.map f) :
    ∀ ls ls' : List (Line D), AllGood good ls → AllGood good ls' →
      ls.flatMap (lineToks dt) ++ [.rbrace] = ls'.flatMap (lineToks dt) ++ [.rbrace] →
      ls.map (Line.map f) = ls'.map (Line.map f) := by
  intro ls
  induction ls with
  | nil =>
    intro ls' _ _ h
    cases ls' with
    | nil => rfl
    | cons l' ls' => cases l' <;> simp [lineToks] at h
  | cons l ls ih =>
    intro ls' hg hg' h
    cases ls' with
    | nil => cases l <;> simp [lineToks] at h
    | cons l' ls' =>
      have hg1 : AllGood good ls := fun i d hd => hg i d (List.mem_cons_of_mem _ hd)
      have hg2 : AllGood good ls' := fun i d hd => hg' i d (List.mem_cons_of_mem _ hd)
      simp only [List.flatMap_cons, List.append_assoc] at h
      cases l with
      | node i d =>
        obtain ⟨m, em, hm⟩ := hb d
        cases l' with
        | node i' d' =>
          obtain ⟨m', em', hm'⟩ := hb d'
          simp only [lineToks, em, em', List.cons_append, List.nil_append, List.append_assoc, List.cons.injEq, Tok.id.injEq,
            true_and] at h
          obtain ⟨e1, h⟩ := h
          obtain ⟨e2, h⟩ := cut_rbrack hm hm' h
          have e3 := hinj d d' (hg i d (by simp)) (hg' i' d' (by simp)) (by rw [em, em', e2])
          simp [Line.map, nodeName_inj e1, e3, ih ls' hg1 hg2 h]
        | edge i' a b => simp [lineToks, em] at h
      | edge i a b =>
        cases l' with
        | node i' d' =>
          obtain ⟨m', em', hm'⟩ := hb d'
          simp [lineToks, em'] at h
        | edge i' a' b' =>
          simp only [lineToks, List.cons_append, List.nil_append, List.cons.injEq, Tok.id.injEq, true_and] at h
          obtain ⟨e1, e2, e3, h⟩ := h
          simp [Line.map, nodeName_inj e1, nodeName_inj e2, nodeName_inj e3, ih ls' hg1 hg2 h]

/-- Nodes in the lines are nodes of the tree. -/
theorem dot_nodes {t : BTree D} {ls : List (Line D)} (h : dot t = some ls) {i : Nat} {d : Option D} (hd : Line.node i d ∈ ls) :
    ∃ p, d = dataAt t p := by
  obtain ⟨slots, _, e⟩ := dot_spec t
  rw [h] at e
  obtain rfl : ls = _ := by simpa using e
  obtain ⟨p, _, hp⟩ := List.mem_flatMap.1 hd
  simp only [linesAt, List.mem_cons, Line.node.injEq] at hp
  rcases hp with ⟨_, e⟩ | hp
  · exact ⟨p, e⟩
  · split at hp <;> simp at hp

theorem attrs_bracketed (label : Option D → Bytes) (more : Option D → List Tok) (h : ∀ d, Tok.rbrack ∉ more d) :
    Bracketed (fun d => attrs (label d) (more d)) := by
  intro d
  refine ⟨[.id (ascii "label"), .eq, .str (label d)] ++ more d, by simp [attrs], ?_⟩
  simp [h d]

theorem colorToks_rbrack (r : Bool) : Tok.rbrack ∉ colorToks r := by cases r <;> decide

/-! ## Labels determine nodes -/

/-- What the dump of a numtree shows of a node. -/
def numView (P : Printer V) {w : Nat} (n : Num.ND w V) : BitVec w × Nat × Option Bytes :=
  (n.key, n.bits, if n.leaf then some (P.goSyntax n.value) else none)

theorem pow_key {w : Nat} (h : 4 ∣ w) (k : BitVec w) : k.toNat < 16 ^ (w / 4) := by
  have : (16 : Nat) ^ (w / 4) = 2 ^ w := by
    rw [show (16 : Nat) = 2 ^ 4 from rfl, ← Nat.pow_mul, Nat.mul_div_cancel' h]
  rw [this]; exact k.isLt

/-- Digits end where something else begins. -/
theorem cut_digits {a b x y : Bytes} (ha : ∀ c ∈ a, IsDigit c) (hb : ∀ c ∈ b, IsDigit c)
    (hx : ∀ c r, x = c :: r → ¬ IsDigit c) (hy : ∀ c r, y = c :: r → ¬ IsDigit c) (h : a ++ x = b ++ y) : a = b ∧ x = y := by
  induction a generalizing b with
  | nil =>
    cases b with
    | nil => exact ⟨rfl, h⟩
    | cons c b => exact absurd (hb c (by simp)) (hx c _ h)
  | cons c a ih =>
    cases b with
    | nil => exact absurd (ha c (by simp)) (hy c _ h.symm)
    | cons c' b =>
      simp only [List.cons_append, List.cons.injEq] at h
      obtain ⟨rfl, h⟩ := h
      obtain ⟨rfl, rfl⟩ := ih (fun c hc => ha c (by simp [hc])) (fun c hc => hb c (by simp [hc])) h
      exact ⟨rfl, rfl⟩

theorem ascii_v : ascii ", v: \\\"" = [44, 32, 118, 58, 32, 92, 34] := by decide
theorem ascii_q : ascii "\\\"" = [92, 34] := by decide
theorem ascii_k : ascii "k: " = [107, 58, 32] := by decide
theorem ascii_b : ascii ", b: " = [44, 32, 98, 58, 32] := by decide
theorem ascii_nil : ascii "nil" = [110, 105, 108] := by decide
theorem ascii_kq : ascii "k: \\\"" = [107, 58, 32, 92, 34] := by decide
theorem ascii_kv : ascii "\\\" v: \\\"" = [92, 34, 32, 118, 58, 32, 92, 34] := by decide
theorem ascii_sv : ascii " v: \\\"" = [32, 118, 58, 32, 92, 34] := by decide

theorem numLabel_inj {P : Printer V} (hq : Quotes P.quote) {w : Nat} (hw : 4 ∣ w) (d d' : Option (Num.ND w V))
    (h : numLabel P d = numLabel P d') : d.map (numView P) = d'.map (numView P) := by
  cases d with
  | none =>
    cases d' with
    | none => rfl
    | some n' => simp [numLabel, ascii_nil, ascii_k] at h
  | some n =>
    cases d' with
    | none => simp [numLabel, ascii_nil, ascii_k] at h
    | some n' =>
      simp only [numLabel, List.append_assoc] at h
      have h := List.append_cancel_left h
      obtain ⟨hk, h⟩ := List.append_inj h (by simp [hex_length])
      have h := List.append_cancel_left h
      have hk : n.key = n'.key := by
        apply BitVec.eq_of_toNat_eq
        rw [← hex_value _ _ (pow_key hw n.key), hk, hex_value _ _ (pow_key hw n'.key)]
      have nd : ∀ (n : Num.ND w V) c r, (if n.leaf = true then ascii ", v: \\\"" ++ (inner P (P.goSyntax n.value) ++ ascii "\\\"") else []) = c :: r →
          ¬ IsDigit c := by
        intro n c r e
        split at e
        · simp only [ascii_v, List.cons_append, List.cons.injEq] at e
          rw [← e.1]; simp [IsDigit]
        · cases e
      obtain ⟨hb, h⟩ := cut_digits (dec_digits _) (dec_digits _) (nd n) (nd n') h
      simp only [Option.map_some, numView, hk, dec_inj hb, Option.some.injEq, Prod.mk.injEq, true_and]
      cases hl : n.leaf <;> cases hl' : n'.leaf <;> simp only [hl, hl', ascii_v, if_true] at h
      · rfl
      · simp at h
      · simp at h
      · have h := List.append_cancel_left h
        have h := List.append_cancel_right h
        simp [inner_inj hq h]

/-- What the dump of a red-black tree shows of a node. -/
def strView (P : Printer V) (n : RB.RD Bytes V) : Bytes × Bytes × Bool := (n.key, P.goSyntax n.value, n.red)

/-- The separator occurs in `a ++ sep ++ b` last before `b`. -/
theorem cut_sep {a b a' b' : Bytes} (hb : ¬ ascii " v: \\\"" <:+: b) (hb' : ¬ ascii " v: \\\"" <:+: b')
    (h : a ++ (ascii "\\\" v: \\\"" ++ b) = a' ++ (ascii "\\\" v: \\\"" ++ b')) : a = a' ∧ b = b' := by
  have key : ∀ {m b b' : Bytes}, m ≠ [] → ¬ ascii " v: \\\"" <:+: b → ascii "\\\" v: \\\"" ++ b = m ++ (ascii "\\\" v: \\\"" ++ b') → False := by
    intro m b b' hm hb h
    rw [ascii_kv] at h
    rw [ascii_sv] at hb
    match m, hm, h with
    | [c1], _, h => simp at h
    | [c1, c2], _, h => simp at h
    | [c1, c2, c3], _, h => simp at h
    | [c1, c2, c3, c4], _, h => simp at h
    | [c1, c2, c3, c4, c5], _, h => simp at h
    | [c1, c2, c3, c4, c5, c6], _, h =>
      simp at h
      exact hb ⟨[], b', by simp [h.2]⟩
    | [c1, c2, c3, c4, c5, c6, c7], _, h => simp at h
    | c1 :: c2 :: c3 :: c4 :: c5 :: c6 :: c7 :: c8 :: m, _, h =>
      simp at h
      refine hb ⟨m ++ [92, 34], b', ?_⟩
      simp [h.2.2.2.2.2.2.2.2]
  rcases List.append_eq_append_iff.1 h with ⟨m, e1, e2⟩ | ⟨m, e1, e2⟩
  · by_cases hm : m = []
    · subst hm; simp at e1 e2; exact ⟨e1.symm, e2⟩
    · exact (key hm hb e2).elim
  · by_cases hm : m = []
    · subst hm; simp at e1 e2; exact ⟨e1, e2.symm⟩
    · exact (key hm hb' e2).elim

/-- Values whose text in the dump cannot be taken for something else: not nil, and without ` v: "`. -/
def Plain (P : Printer V) (v : V) : Prop := P.isNil v = false ∧ ¬ ascii " v: \\\"" <:+: inner P (P.goSyntax v)

theorem strLabel_inj {P : Printer V} (hq : Quotes P.quote) (d d' : Option (RB.RD Bytes V))
    (hd : ∀ n, d = some n → Plain P n.value) (hd' : ∀ n, d' = some n → Plain P n.value)
    (h : strLabel P d = strLabel P d') (hr : redOf d = redOf d') : d.map (strView P) = d'.map (strView P) := by
  cases d with
  | none =>
    cases d' with
    | none => rfl
    | some n' => simp [strLabel, (hd' n' rfl).1, ascii_nil, ascii_kq] at h
  | some n =>
    cases d' with
    | none => simp [strLabel, (hd n rfl).1, ascii_nil, ascii_kq] at h
    | some n' =>
      simp only [strLabel, (hd n rfl).1, (hd' n' rfl).1, Bool.false_eq_true, if_false] at h
      have h := List.append_cancel_right h
      simp only [List.append_assoc] at h
      have h := List.append_cancel_left h
      obtain ⟨h1, h2⟩ := cut_sep (hd n rfl).2 (hd' n' rfl).2 h
      simp only [redOf] at hr
      simp [strView, inner_inj hq h1, inner_inj hq h2, hr]

theorem uintLabel_inj {quote : Bytes → Bytes} (hq : Quotes quote) (d d' : Option (RB.RD Bytes Nat))
    (h : uintLabel quote d = uintLabel quote d') (hr : redOf d = redOf d') : d = d' := by
  cases d with
  | none =>
    cases d' with
    | none => rfl
    | some n' => simp [uintLabel, ascii_nil, ascii_kq] at h
  | some n =>
    cases d' with
    | none => simp [uintLabel, ascii_nil, ascii_kq] at h
    | some n' =>
      simp only [uintLabel] at h
      have h := List.append_cancel_right h
      simp only [List.append_assoc] at h
      have h := List.append_cancel_left h
      have nov : ∀ k, ¬ ascii " v: \\\"" <:+: dec k := by
        rintro k ⟨s, t, e⟩
        have : (32 : UInt8) ∈ dec k := by rw [← e, ascii_sv]; simp
        exact absurd (dec_digits k _ this) (by simp [IsDigit])
      obtain ⟨h1, h2⟩ := cut_sep (nov _) (nov _) h
      have := inner_inj (P := uintPrinter quote) hq h1
      have h2 := dec_inj h2
      cases n; cases n'
      simp_all [redOf]

/-- Nodes are listed by Enumerate. -/
theorem dataAt_mem (t : RB.RTree Bytes V) (p : Pos) (n : RB.RD Bytes V) (h : dataAt t p = some n) :
    (n.key, n.value) ∈ RB.enumerate t := by
  induction t generalizing p with
  | nil => cases p <;> simp [dataAt, subAt] at h
  | node d l r ihl ihr =>
    cases p with
    | nil => simp only [dataAt, subAt, Option.some.injEq] at h; simp [RB.enumerate, h]
    | cons b p =>
      cases b
      · have := ihl p (by simpa [dataAt, subAt] using h)
        simp [RB.enumerate, this]
      · have := ihr p (by simpa [dataAt, subAt] using h)
        simp [RB.enumerate, this]

end Verif.Dot
