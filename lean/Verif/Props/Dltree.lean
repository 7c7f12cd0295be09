import Verif.DL.Lemmas
import Verif.Props.Domain

/-! # Properties C26-C28 of dltree (functional part) -/

namespace Verif.Props
open Verif.Domain Verif.DomainText Verif.DL
variable {V : Type} [Inhabited V]

/-- `s` is the text of a label (an ending dot is ignored) that decodes to `l`. -/
def Means (s l : Bytes) : Prop :=
  ∃ toks : List Tok, ∃ dot : Bool, (∀ t ∈ toks, t.Valid) ∧ toks.length ≤ 63 ∧
    s = (labelText toks ++ if dot then [46] else []) ∧ l = labelBytes toks

theorem Means.labelOf {s l : Bytes} (h : Means s l) : DL.labelOf s = some l := by
  obtain ⟨toks, dot, h1, h2, rfl, rfl⟩ := h
  unfold DL.labelOf MakeLabel
  rw [getLabel_text h1, if_pos h2]

/-- What a call with well-formed arguments stands for. -/
inductive OpMeans : DL.Op V → KOp Bytes V → Prop where
  | insert {s l : Bytes} {v : V} (h : Means s l) : OpMeans (.insert s v) (.insert l v)
  | delete {s l : Bytes} (h : Means s l) : OpMeans (.delete s) (.delete l)
  | rawInsert {l : Bytes} {v : V} : OpMeans (.rawInsert l v) (.insert l v)
  | rawDelete {l : Bytes} : OpMeans (.rawDelete l) (.delete l)

omit [Inhabited V] in
theorem absOps_means {ops : List (DL.Op V × KOp Bytes V)} (h : ∀ p ∈ ops, OpMeans p.1 p.2) :
    absOps (ops.map Prod.fst) = some (ops.map Prod.snd) := by
  induction ops with
  | nil => rfl
  | cons p ops ih =>
    have h1 := ih (fun x hx => h x (by simp [hx]))
    have h2 : p.1.abs = some p.2 := by
      obtain ⟨op, k⟩ := p
      have := h (op, k) (by simp)
      cases this with
      | insert hm => simp [DL.Op.abs, hm.labelOf]
      | delete hm => simp [DL.Op.abs, hm.labelOf]
      | rawInsert => rfl
      | rawDelete => rfl
    simp only [List.map_cons, absOps, h1, h2]

/-- C26: a map on decoded upper-cased labels, for any mix of human-readable and raw calls, from a nil or new tree. -/
theorem C26_map {t0 : Option (DL.Tree V)} (h0 : t0 = none ∨ t0 = DL.NewTree) (ops : List (DL.Op V × KOp Bytes V))
    (h : ∀ p ∈ ops, OpMeans p.1 p.2) : ∃ t, DL.run t0 (ops.map Prod.fst) = some t ∧
      (∀ l, RawGet t l = lastWrite' (ops.map Prod.snd) l) ∧
      (∀ s l, Means s l → DL.Get t s = some (lastWrite' (ops.map Prod.snd) l)) := by
  obtain ⟨t, r, h1, h2, h3, h4⟩ := DL.run_like (t0 := t0) (by rcases h0 with rfl | rfl <;> rfl) _ (absOps_means h)
  have key : ∀ l, RawGet t l = lastWrite' (ops.map Prod.snd) l := by
    intro l; rw [rawGet_eq, h3, RB.get_run cmpLabel_lawful h2, lastWriteBy_label]
  exact ⟨t, h1, key, fun s l hs => by rw [get_eq hs.labelOf, key]⟩

/-- C26: the flag of Delete tells whether the label was present. -/
theorem C26_delete_flag {t0 : Option (DL.Tree V)} (h0 : t0 = none ∨ t0 = DL.NewTree) (ops : List (DL.Op V × KOp Bytes V))
    (h : ∀ p ∈ ops, OpMeans p.1 p.2) : ∃ t, DL.run t0 (ops.map Prod.fst) = some t ∧
      (∀ l, (RawDelete t l).2 = (lastWrite' (ops.map Prod.snd) l).isSome) ∧
      (∀ s l, Means s l → (DL.Delete t s).map Prod.snd = some (lastWrite' (ops.map Prod.snd) l).isSome) := by
  obtain ⟨t, r, h1, h2, h3, h4⟩ := DL.run_like (t0 := t0) (by rcases h0 with rfl | rfl <;> rfl) _ (absOps_means h)
  have key : ∀ l, (RawDelete t l).2 = (lastWrite' (ops.map Prod.snd) l).isSome := by
    intro l
    have h5 := (RB.run_spec cmpLabel_lawful h2).1
    have h6 := (RB.del_spec cmpLabel_lawful h5 l).2
    rw [(rawDelete_eq t l).2, h3, ← lastWriteBy_label, ← RB.get_run cmpLabel_lawful h2, RB.get_spec cmpLabel_lawful h5,
      Option.isSome_map, Bool.eq_iff_iff, h6, Option.isSome_iff_exists]
    constructor
    · rintro ⟨a, ha, h⟩; exact ⟨a, (h5.lookupL_iff cmpLabel_lawful l a).2 ⟨ha, h⟩⟩
    · rintro ⟨a, ha⟩; exact ⟨a, (h5.lookupL_iff cmpLabel_lawful l a).1 ha⟩
  refine ⟨t, h1, key, fun s l hs => ?_⟩
  rw [← key]
  cases t
  · rfl
  · simp [DL.Delete, hs.labelOf]

/-- `a\.B` and `A\046b.` are the same label. -/
example : Means [97, 92, 46, 66] [65, 46, 66] ∧ Means [65, 92, 48, 52, 54, 98, 46] [65, 46, 66] :=
  ⟨⟨[.plain 97, .esc 46, .plain 66], false, by decide, by decide, by decide, by decide⟩,
   ⟨[.plain 65, .dec 48 52 54, .plain 98], true, by decide, by decide, by decide, by decide⟩⟩

example : (DL.run (V := Nat) none [.rawDelete [67], .insert [65, 92, 48, 52, 54, 98, 46] 2, .rawInsert [67] 3, .insert [97, 92, 46, 66] 1]).bind
    (fun t => (DL.Get t [97, 92, 46, 98]).map fun g => (g, RawEnumerate t)) = some (some 2, [([65, 46, 66], 2)]) := by decide +kernel

/-- C27: binary labels come out once each, by length and then bytewise. -/
theorem C27_raw_sorted {t0 : Option (DL.Tree V)} (h0 : t0 = none ∨ t0 = DL.NewTree) (ops : List (DL.Op V × KOp Bytes V))
    (h : ∀ p ∈ ops, OpMeans p.1 p.2) : ∃ t, DL.run t0 (ops.map Prod.fst) = some t ∧
      (RawEnumerate t).Pairwise fun a b => a.1.length < b.1.length ∨ (a.1.length = b.1.length ∧ a.1 < b.1) := by
  obtain ⟨t, r, h1, h2, h3, h4⟩ := DL.run_like (t0 := t0) (by rcases h0 with rfl | rfl <;> rfl) _ (absOps_means h)
  refine ⟨t, h1, ?_⟩
  unfold RawEnumerate
  rw [h3]
  exact (RB.run_spec cmpLabel_lawful h2).1.imp fun hx => cmpLabel_lt.1 hx

/-- C27: the listing is complete and contains nothing else. -/
theorem C27_complete {t0 : Option (DL.Tree V)} (h0 : t0 = none ∨ t0 = DL.NewTree) (ops : List (DL.Op V × KOp Bytes V))
    (h : ∀ p ∈ ops, OpMeans p.1 p.2) : ∃ t, DL.run t0 (ops.map Prod.fst) = some t ∧
      ∀ l v, (l, v) ∈ RawEnumerate t ↔ lastWrite' (ops.map Prod.snd) l = some v := by
  obtain ⟨t, r, h1, h2, h3, h4⟩ := DL.run_like (t0 := t0) (by rcases h0 with rfl | rfl <;> rfl) _ (absOps_means h)
  refine ⟨t, h1, fun l v => ?_⟩
  have h5 := (RB.run_spec cmpLabel_lawful h2).1
  rw [← lastWriteBy_label, ← RB.get_run cmpLabel_lawful h2, RB.get_spec cmpLabel_lawful h5]
  unfold RawEnumerate
  rw [h3]
  constructor
  · intro hm
    rw [(h5.lookupL_iff cmpLabel_lawful l (l, v)).2 ⟨hm, cmpLabel_lawful.refl l⟩]; rfl
  · intro hx
    cases hl : RB.lookupL cmpLabel l (RB.enumerate r) with
    | none => simp [hl] at hx
    | some p =>
      obtain ⟨k, v'⟩ := p
      simp [hl] at hx; subst hx
      obtain ⟨h6, h7⟩ := (h5.lookupL_iff cmpLabel_lawful l _).1 hl
      cases cmpLabel_eq_zero.1 h7
      exact h6

/-- C27: Enumerate is the same listing with each key printed, if the stored labels have legal lengths; each printed key
parses back to the stored label up to case. -/
theorem C27_human {t0 : Option (DL.Tree V)} (h0 : t0 = none ∨ t0 = DL.NewTree) (ops : List (DL.Op V × KOp Bytes V))
    (h : ∀ p ∈ ops, OpMeans p.1 p.2) : ∃ t, DL.run t0 (ops.map Prod.fst) = some t ∧
      ((∀ p ∈ RawEnumerate t, p.1.length ≤ 63) → ∃ xs, DL.Enumerate t = some xs ∧ xs.map Prod.snd = (RawEnumerate t).map Prod.snd ∧
        xs.map (fun p => some p.1) = (RawEnumerate t).map (fun p => MakeHumanReadableLabel p.1) ∧
        xs.map (fun p => MakeLabel p.1) = (RawEnumerate t).map (fun p => .ok (p.1.map toUpper))) := by
  obtain ⟨t, r, h1, h2, h3, h4⟩ := DL.run_like (t0 := t0) (by rcases h0 with rfl | rfl <;> rfl) _ (absOps_means h)
  refine ⟨t, h1, fun hs => ⟨_, enumerateN_short (DL.rootOf t) hs, ?_, ?_, ?_⟩⟩
  · simp [RawEnumerate, Function.comp_def]
  · simp only [RawEnumerate, List.map_map]
    apply List.map_congr_left
    intro p hp
    have := human_short p.1 [] 0 (by simp) (by simpa using hs p hp)
    simpa [MakeHumanReadableLabel] using this.symm
  · simp only [RawEnumerate, List.map_map]
    apply List.map_congr_left
    intro p hp
    exact makeLabel_human p.1 (hs p hp)

/-- C27: red-black balance and logarithmic height. -/
theorem C27_balance {t0 : Option (DL.Tree V)} (h0 : t0 = none ∨ t0 = DL.NewTree) (ops : List (DL.Op V × KOp Bytes V))
    (h : ∀ p ∈ ops, OpMeans p.1 p.2) : ∃ t, DL.run t0 (ops.map Prod.fst) = some t ∧ IsRedBlack RB.RD.red (DL.rootOf t) ∧
      (DL.rootOf t).height ≤ 2 * Nat.log2 ((RawEnumerate t).length + 1) := by
  obtain ⟨t, r, h1, h2, h3, h4⟩ := DL.run_like (t0 := t0) (by rcases h0 with rfl | rfl <;> rfl) _ (absOps_means h)
  refine ⟨t, h1, by rw [h3]; exact h4.isRedBlack, ?_⟩
  unfold RawEnumerate
  rw [h3, RB.length_enumerate]
  exact h4.height_le

example : (DL.run (V := Nat) DL.NewTree [.insert [97, 97] 1, .insert [98] 2, .insert [99] 3, .insert [97] 4, .rawInsert [0] 5]).bind
    (fun t => (DL.Enumerate t).map fun e => (RawEnumerate t, e)) =
    some ([([0], 5), ([65], 4), ([66], 2), ([67], 3), ([65, 65], 1)],
      [([92, 48, 48, 48], 5), ([97], 4), ([98], 2), ([99], 3), ([97, 97], 1)]) := by decide +kernel

/-- C28 is false of the code: the error of MakeLabel is dropped, so a malformed key (a lone backslash) finds what is
stored under the empty label. -/
theorem C28_false : ¬ ∀ (good bad lg : Bytes) (e : Err) (v : Nat), MakeLabel good = .ok lg → MakeLabel bad = .err e →
    ∀ t, DL.Insert none good v = some t → DL.Get t bad = some none := by
  intro h
  have := h [] [92] [] .invalidEscape 1 rfl rfl _ rfl
  exact absurd this (by decide)

/-- C28: two different malformed keys are confused as well. -/
theorem C28_confused : ∃ t, DL.Insert none [92] (1 : Nat) = some t ∧ DL.Get t [92, 57] = some (some 1) :=
  ⟨_, rfl, by decide⟩

/-- C28: a key with an unescaped inner dot panics. -/
theorem C28_panics : DL.Insert none [97, 46, 98] (1 : Nat) = none := by decide

/-- C28, the part that holds: a call with a malformed key acts on the empty label only, so entries under all other
labels are untouched and never returned.  Missing: the empty label, and keys with an inner dot, which panic. -/
theorem C28_other_labels_partial {t0 : Option (DL.Tree V)} (h0 : t0 = none ∨ t0 = DL.NewTree) (ops : List (DL.Op V × KOp Bytes V))
    (h : ∀ p ∈ ops, OpMeans p.1 p.2) (bad : Bytes) (e : Err) (hbad : MakeLabel bad = .err e) (v : V) :
    ∃ t ti td, DL.run t0 (ops.map Prod.fst) = some t ∧ DL.Insert t bad v = some ti ∧ DL.Delete t bad = some td ∧
      (∀ l, l ≠ [] → RawGet ti l = RawGet t l ∧ RawGet td.1 l = RawGet t l) ∧
      DL.Get t bad = some (lastWrite' (ops.map Prod.snd) []) := by
  have hl : DL.labelOf bad = some [] := by simp [DL.labelOf, hbad]
  have habs := absOps_means h
  obtain ⟨t, r, h1, h2, h3, h4⟩ := DL.run_like (t0 := t0) (by rcases h0 with rfl | rfl <;> rfl) _ habs
  obtain ⟨ti, ri, i1, i2, i3, _⟩ := DL.run_like (t0 := t0) (by rcases h0 with rfl | rfl <;> rfl) (.insert bad v :: ops.map Prod.fst)
    (as := .insert [] v :: ops.map Prod.snd) (by simp [absOps, DL.Op.abs, hl, habs])
  obtain ⟨td, rd, d1, d2, d3, _⟩ := DL.run_like (t0 := t0) (by rcases h0 with rfl | rfl <;> rfl) (.delete bad :: ops.map Prod.fst)
    (as := .delete [] :: ops.map Prod.snd) (by simp [absOps, DL.Op.abs, hl, habs])
  have key : ∀ t r as, DL.rootOf t = r → RB.run cmpLabel as = some r → ∀ l : Bytes, RawGet (V := V) t l = lastWrite' as l := by
    intro t r as e1 e2 l; rw [rawGet_eq, e1, RB.get_run cmpLabel_lawful e2, lastWriteBy_label]
  simp only [DL.run, h1, Option.bind_some, DL.step] at i1 d1
  obtain ⟨td', e1, e2⟩ : ∃ x, DL.Delete t bad = some x ∧ x.1 = td := by
    cases hd : DL.Delete t bad with
    | none => simp [hd] at d1
    | some x => simp [hd] at d1; exact ⟨x, rfl, d1⟩
  refine ⟨t, ti, td', h1, i1, e1, ?_, ?_⟩
  · intro l hne
    have : ¬ ([] : Bytes) = l := fun h => hne h.symm
    rw [e2, key t r _ h3 h2, key ti ri _ i3 i2, key td rd _ d3 d2]
    simp [lastWrite', this]
  · rw [get_eq hl, key t r _ h3 h2]

example : MakeLabel [92, 57] = .err .invalidEscape := by decide

end Verif.Props
