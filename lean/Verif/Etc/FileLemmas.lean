import Verif.Etc.Execute
import Verif.Etc.Names

/-! # Lemmas about the file system and about places -/

namespace Verif.Etc
open Verif Verif.Path

theorem find_filter (fs : FS) (p x : Place) : FS.find (fs.filter fun y => y.1 ≠ p) x = if x = p then none else fs.find x := by
  induction fs with
  | nil => simp [FS.find]
  | cons y fs ih =>
    obtain ⟨q, e⟩ := y
    by_cases hq : q = p
    · rw [List.filter_cons_of_neg (by simp [hq]), ih]
      simp only [FS.find]
      split
      · rfl
      · rename_i h
        rw [if_neg]; rintro rfl; exact h hq
    · rw [List.filter_cons_of_pos (by simp [hq])]
      simp only [FS.find, ih]
      split
      · rename_i h
        subst h
        rw [if_neg hq]
      · rfl

theorem get_root (fs : FS) : fs.get [] = some .dir := rfl

theorem get_put (fs : FS) {p : Place} (hp : p ≠ []) (e : Entry) (x : Place) : (fs.put p e).get x = if x = p then some e else fs.get x := by
  simp only [FS.get, FS.put, FS.find, find_filter]
  by_cases hx : x = p
  · subst hx; simp [hp]
  · have : p ≠ x := fun h => hx h.symm
    by_cases h0 : x = [] <;> simp [hx, h0, this, hp]

/-! ## Directories -/

theorem insertName_mem (n m : Bytes) (l : List Bytes) : m ∈ insertName n l ↔ m = n ∨ m ∈ l := by
  induction l with
  | nil => simp [insertName]
  | cons a l ih =>
    simp only [insertName]
    split
    · rename_i h; subst h; simp
    · split
      · simp
      · simp only [List.mem_cons, ih]; grind

theorem insertName_sorted (n : Bytes) {l : List Bytes} (h : l.Pairwise fun a b => compareBytes a b < 0) :
    (insertName n l).Pairwise fun a b => compareBytes a b < 0 := by
  induction l with
  | nil => simp [insertName]
  | cons a l ih =>
    obtain ⟨h1, h2⟩ := List.pairwise_cons.mp h
    simp only [insertName]
    split
    · exact h
    · rename_i hne
      split
      · rename_i hlt
        refine List.pairwise_cons.mpr ⟨fun b hb => ?_, h⟩
        rcases List.mem_cons.mp hb with rfl | hb
        · exact hlt
        · have := h1 b hb
          rw [compareBytes_lt_iff] at *
          exact List.lt_trans hlt this
      · rename_i hge
        refine List.pairwise_cons.mpr ⟨fun b hb => ?_, ih h2⟩
        rcases (insertName_mem n b l).mp hb with rfl | hb
        · have h3 := compareBytes_neg a b
          have h4 : compareBytes a b ≠ 0 := fun h => hne (compareBytes_eq_zero.mp h).symm
          omega
        · exact h1 b hb

theorem sorted_unique {l m : List Bytes} (hl : l.Pairwise fun a b => compareBytes a b < 0) (hm : m.Pairwise fun a b => compareBytes a b < 0)
    (h : ∀ n, n ∈ l ↔ n ∈ m) : l = m := by
  induction l generalizing m with
  | nil =>
    cases m with
    | nil => rfl
    | cons b m => exact absurd ((h b).mpr (by simp)) (by simp)
  | cons a l ih =>
    cases m with
    | nil => exact absurd ((h a).mp (by simp)) (by simp)
    | cons b m =>
      obtain ⟨l1, l2⟩ := List.pairwise_cons.mp hl
      obtain ⟨m1, m2⟩ := List.pairwise_cons.mp hm
      have irr : ∀ x, ¬ compareBytes x x < 0 := fun x => by rw [compareBytes_eq_zero.mpr rfl]; omega
      have hab : a = b := by
        rcases List.mem_cons.mp ((h a).mp (by simp)) with e | e
        · exact e
        · rcases List.mem_cons.mp ((h b).mpr (by simp)) with e' | e'
          · exact e'.symm
          · have h1 := m1 a e
            have h2 := l1 b e'
            have := compareBytes_neg a b
            omega
      subst hab
      congr 1
      refine ih l2 m2 fun n => ⟨fun hn => ?_, fun hn => ?_⟩
      · rcases List.mem_cons.mp ((h n).mp (by simp [hn])) with rfl | e
        · exact absurd (l1 _ hn) (irr _)
        · exact e
      · rcases List.mem_cons.mp ((h n).mpr (by simp [hn])) with rfl | e
        · exact absurd (m1 _ hn) (irr _)
        · exact e

theorem find_ne_none (fs : FS) (p : Place) : fs.find p ≠ none ↔ ∃ x ∈ fs, x.1 = p := by
  induction fs with
  | nil => simp [FS.find]
  | cons y fs ih =>
    obtain ⟨q, e⟩ := y
    simp only [FS.find]
    split
    · rename_i h; simp [h]
    · rename_i h; simp [ih, h]

theorem readDir_spec {fs : FS} {p : Place} (h : fs.get p = some .dir) : ∃ l, fs.readDir p = some l ∧
    l.Pairwise (fun a b => compareBytes a b < 0) ∧ ∀ n, n ∈ l ↔ fs.get (p ++ [n]) ≠ none := by
  refine ⟨(fs.filterMap (nameIn p)).foldr insertName [], by simp [FS.readDir, h], ?_, fun n => ?_⟩
  · generalize fs.filterMap (nameIn p) = l
    induction l with
    | nil => simp
    | cons a l ih => exact insertName_sorted a ih
  · have e1 : ∀ l : List Bytes, n ∈ l.foldr insertName [] ↔ n ∈ l := by
      intro l
      induction l with
      | nil => simp
      | cons a l ih => simp [insertName_mem, ih]
    rw [e1, show fs.get (p ++ [n]) = fs.find (p ++ [n]) by simp [FS.get], find_ne_none, List.mem_filterMap]
    constructor
    · rintro ⟨x, hx, e⟩
      refine ⟨x, hx, ?_⟩
      simp only [nameIn] at e
      split at e
      · rename_i hd
        have hne : x.1 ≠ [] := by rintro h0; simp [h0] at e
        rw [List.getLast?_eq_some_getLast hne, Option.some.injEq] at e
        have := List.dropLast_concat_getLast hne
        rw [hd, e] at this
        exact this.symm
      · cases e
    · rintro ⟨x, hx, e⟩
      exact ⟨x, hx, by simp [nameIn, e]⟩

theorem readDir_congr {fs fs' : FS} {p : Place} (h : fs'.get p = fs.get p) (hc : ∀ n, fs'.get (p ++ [n]) = fs.get (p ++ [n])) :
    fs'.readDir p = fs.readDir p := by
  cases hp : fs.get p with
  | none => simp [FS.readDir, h, hp]
  | some e =>
    cases e with
    | file b => simp [FS.readDir, h, hp]
    | dir =>
      obtain ⟨l, a1, a2, a3⟩ := readDir_spec hp
      obtain ⟨l', b1, b2, b3⟩ := readDir_spec (h.trans hp)
      rw [a1, b1, sorted_unique b2 a2 fun n => by rw [a3, b3, hc]]

/-! ## Changes -/

theorem snoc_prefix {p x : Place} {n : Bytes} (h : p ++ [n] <+: x) : p <+: x ∧ x ≠ p := by
  obtain ⟨y, rfl⟩ := h
  exact ⟨⟨n :: y, by simp⟩, by intro h; have := congrArg List.length h; simp at this⟩

/-- Every place on the way down from `base`: its first step. -/
theorem on_way {base p x : Place} {n : Bytes} (h1 : base <+: x) (h2 : x <+: base ++ n :: p) (h3 : x ≠ base) : base ++ [n] <+: x := by
  obtain ⟨y, rfl⟩ := h1
  cases y with
  | nil => simp at h3
  | cons m y =>
    rw [List.prefix_append_right_inj] at h2
    obtain ⟨rfl, _⟩ := List.cons_prefix_cons.mp h2
    exact ⟨y, by simp⟩

theorem mkdirs_spec (p : Place) : ∀ (fs : FS) (base : Place),
    (∀ x, (fs.mkdirs base p).1.get x = fs.get x ∨
      (fs.get x = none ∧ base <+: x ∧ x <+: base ++ p ∧ x ≠ base ∧ (fs.mkdirs base p).1.get x = some .dir)) ∧
    ((fs.mkdirs base p).2 = true → ∀ x, base <+: x → x <+: base ++ p → x ≠ base → (fs.mkdirs base p).1.get x = some .dir) ∧
    ((fs.mkdirs base p).2 = false → ∃ x b, base <+: x ∧ x <+: base ++ p ∧ fs.get x = some (.file b)) := by
  induction p with
  | nil =>
    intro fs base
    refine ⟨fun x => .inl rfl, fun _ x h1 h2 h3 => absurd ?_ h3, by simp [FS.mkdirs]⟩
    simp only [List.append_nil] at h2
    exact (List.IsPrefix.eq_of_length h1 (Nat.le_antisymm h1.length_le h2.length_le)).symm
  | cons n p ih =>
    intro fs base
    have e : base ++ n :: p = (base ++ [n]) ++ p := by simp
    have np : base ++ [n] ≠ [] := by simp
    have pre : base <+: base ++ [n] := ⟨[n], rfl⟩
    cases hg : fs.get (base ++ [n]) with
    | none =>
      obtain ⟨a, b, c⟩ := ih (fs.put (base ++ [n]) .dir) (base ++ [n])
      simp only [FS.mkdirs, hg]
      have hput := fun x => get_put fs np .dir x
      refine ⟨fun x => ?_, fun hs x h1 h2 h3 => ?_, fun hf => ?_⟩
      · by_cases hx : x = base ++ [n]
        · subst hx
          right
          refine ⟨hg, pre, by rw [e]; exact List.prefix_append _ _, (snoc_prefix (List.prefix_refl _)).2, ?_⟩
          rcases a (base ++ [n]) with h | h
          · rw [h, hput, if_pos rfl]
          · exact h.2.2.2.2
        · rcases a x with h | ⟨h1, h2, h3, h4, h5⟩
          · rw [hput, if_neg hx] at h; exact .inl h
          · rw [hput, if_neg hx] at h1
            exact .inr ⟨h1, (snoc_prefix h2).1, by rw [e]; exact h3, (snoc_prefix h2).2, h5⟩
      · have := on_way h1 h2 h3
        by_cases hx : x = base ++ [n]
        · subst hx
          rcases a (base ++ [n]) with h | h
          · rw [h, hput, if_pos rfl]
          · exact h.2.2.2.2
        · exact b hs x this (by rw [← e]; exact h2) hx
      · obtain ⟨x, y, h1, h2, h3⟩ := c hf
        rw [hput] at h3
        split at h3
        · cases h3
        · exact ⟨x, y, (snoc_prefix h1).1, by rw [e]; exact h2, h3⟩
    | some en =>
      cases en with
      | file y =>
        simp only [FS.mkdirs, hg]
        exact ⟨fun x => by simp, by simp, fun _ => ⟨_, y, pre, by rw [e]; exact List.prefix_append _ _, hg⟩⟩
      | dir =>
        obtain ⟨a, b, c⟩ := ih fs (base ++ [n])
        simp only [FS.mkdirs, hg]
        refine ⟨fun x => ?_, fun hs x h1 h2 h3 => ?_, fun hf => ?_⟩
        · rcases a x with h | ⟨h1, h2, h3, h4, h5⟩
          · exact .inl h
          · exact .inr ⟨h1, (snoc_prefix h2).1, by rw [e]; exact h3, (snoc_prefix h2).2, h5⟩
        · by_cases hx : x = base ++ [n]
          · subst hx
            rcases a (base ++ [n]) with h | h
            · rw [h, hg]
            · exact h.2.2.2.2
          · exact b hs x (on_way h1 h2 h3) (by rw [← e]; exact h2) hx
        · obtain ⟨x, y, h1, h2, h3⟩ := c hf
          exact ⟨x, y, (snoc_prefix h1).1, by rw [e]; exact h2, h3⟩

theorem create_spec {fs fs' : FS} {p : Place} {b : Bytes} (h : fs.create p b = some fs') :
    fs.get p ≠ some .dir ∧ fs.get p.dropLast = some .dir ∧ ∀ x, fs'.get x = if x = p then some (.file b) else fs.get x := by
  simp only [FS.create] at h
  split at h
  · cases h
  · rename_i hd
    split at h
    · rename_i hp
      cases h
      have hne : p ≠ [] := by rintro rfl; exact hd rfl
      exact ⟨hd, hp, get_put fs hne _⟩
    · cases h

theorem create_ok {fs : FS} {p : Place} (h1 : fs.get p ≠ some .dir) (h2 : fs.get p.dropLast = some .dir) (b : Bytes) :
    ∃ fs', fs.create p b = some fs' := by
  refine ⟨fs.put p (.file b), ?_⟩
  rw [FS.create, h2]
  split
  · contradiction
  · rfl

/-! ## Places and texts -/

/-- Names that can be written in a path. -/
def Named (l : Place) : Prop := ∀ c ∈ l, Nm c

/-- The text of a place. -/
def absText (l : Place) : Bytes := 47 :: joined l

theorem Named.normal {l : Place} (h : Named l) (r : Prop) : Normal r l := ⟨0, l, h, by simp, by simp [ups]⟩

theorem place_rooted {p : Bytes} (h : Rooted p) : Named (place p) := by
  obtain ⟨⟨k, cs, h1, h2, h3⟩, _⟩ := place_clean p
  obtain rfl := h2 h
  rw [h3]; simpa [ups, Named] using h1

theorem place_absText {l : Place} (h : Named l) : place (absText l) = l := by
  have hN := h.normal True
  have hno := hN.nosl
  refine (clean_of (rooted := True) (by simp [absText, Rooted]) hN ?_).1
  by_cases h0 : l = []
  · simp [absText, h0, joined, pieces]
  · have e : absText l = [] ++ 47 :: joined l := rfl
    rw [e, pieces_sep, List.filter_append, pieces_joined (fun c hc => (hno c hc).1) h0, filter_ne fun c hc => (hno c hc).2]
    simp [pieces]

theorem clean_absText {l : Place} (h : Named l) : Clean (absText l) = absText l := by
  rw [(place_clean _).2, place_absText h]; simp [text, absText, Rooted]

theorem resolve_absText (wd : Bytes) {l : Place} (h : Named l) : resolve wd (absText l) = l := by
  rw [resolve, if_pos (by simp [Rooted, absText]), place_absText h]

theorem rooted_append {wd : Bytes} (h : Rooted wd) (q : Bytes) : Rooted (wd ++ q) := by
  cases wd with
  | nil => simp [Rooted] at h
  | cons a wd => simpa [Rooted] using h

theorem resolve_named {wd : Bytes} (hwd : Rooted wd) (p : Bytes) : Named (resolve wd p) := by
  refine place_rooted ?_
  split
  · assumption
  · exact rooted_append hwd _

theorem clean_rooted {q : Bytes} (h : Rooted q) : Clean q = absText (place q) := by
  rw [(place_clean q).2]; simp [text, h, absText]

theorem abs_resolve {wd : Bytes} (hwd : Rooted wd) (p : Bytes) : Abs wd p = absText (resolve wd p) := by
  by_cases hp : Rooted p
  · simp only [Abs, if_pos hp, resolve]
    simp only [Rooted] at hp
    rw [if_pos hp, clean_rooted hp]
  · have hw : wd ≠ [] := by rintro rfl; simp [Rooted] at hwd
    have h0 : 0 < wd.length := by cases wd with
      | nil => simp at hw
      | cons => simp
    have hp' : ¬ p.head? = some 47 := hp
    simp only [Abs, if_neg hp', Join, resolve, if_neg hp]
    rw [if_neg (by simp [hw])]
    simp only [joinBuf, List.length_nil, Nat.lt_irrefl, decide_false, Bool.false_or, ne_eq, hw, not_false_eq_true, decide_true, if_true,
      List.nil_append, h0, Bool.true_or, if_false]
    rw [List.append_assoc, List.singleton_append, clean_rooted (rooted_append hwd _)]

theorem join_item {l : Place} {n : Bytes} (h : Named (l ++ [n])) : Join [absText l, n] = absText (l ++ [n]) := by
  have hl : Named l := fun c hc => h c (by simp [hc])
  have hn := h n (by simp)
  rw [Join, if_neg (by simp [absText])]
  simp only [joinBuf, absText, List.length_nil, Nat.lt_irrefl, decide_false, Bool.false_or, ne_eq, not_false_eq_true, decide_true, if_true,
    List.nil_append, List.length_cons, Nat.zero_lt_succ, Bool.true_or, if_false, reduceCtorEq]
  have hr : Rooted (47 :: joined l ++ [47] ++ n) := by simp [Rooted]
  rw [clean_rooted hr]
  have hN := h.normal True
  have : place (47 :: joined l ++ [47] ++ n) = l ++ [n] := by
    refine (clean_of (rooted := True) (by simp [Rooted]) hN ?_).1
    have hno := (hl.normal True).nosl
    have e : 47 :: joined l ++ [47] ++ n = [] ++ 47 :: (joined l ++ 47 :: n) := by simp
    have pn : pieces n = [n] := by
      have := pieces_joined (l := [n]) (by simpa using hn.nosl) (by simp)
      simpa [joined] using this
    by_cases h0 : l = []
    · subst h0
      rw [e, pieces_sep, pieces_sep, pn]
      simp [pieces, joined, hn.ne]
    · rw [e, pieces_sep, pieces_sep, pieces_joined (fun c hc => (hno c hc).1) h0, pn, List.filter_append, List.filter_append,
        filter_ne fun c hc => (hno c hc).2]
      simp [pieces, hn.ne]
  rw [this]
  rfl

theorem abs_absText (wd : Bytes) {l : Place} (h : Named l) : Abs wd (absText l) = absText l := by
  rw [Abs, if_pos (by simp [absText]), clean_absText h]

end Verif.Etc
