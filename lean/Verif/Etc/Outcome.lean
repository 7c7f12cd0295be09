import Verif.Etc.Run
import Verif.Spec.Catalog

/-! # The catalog's order, and what a whole run leaves behind -/

namespace Verif.Etc
open Verif Verif.Path Verif.Catalog
variable {X : Type} {L : Libs X} {wd : Bytes} {d : Val X} {pre : List Bytes}

theorem earlier_append (p : Place) {a b : Place} : Earlier (p ++ a) (p ++ b) ↔ Earlier a b := by
  induction p with
  | nil => rfl
  | cons x p ih =>
    simp only [List.cons_append, Earlier, ih, true_and]
    rw [compareBytes_eq_zero.mpr rfl]; simp

theorem earlier_irrefl (p : Place) : ¬ Earlier p p := by
  have := (earlier_append p (a := []) (b := [])).mp
  simpa [Earlier] using this

theorem earlier_asymm : ∀ {p q : Place}, Earlier p q → ¬ Earlier q p
  | [], [], h => h.elim
  | [], _ :: _, _ => id
  | _ :: _, [], h => h.elim
  | a :: p, b :: q, h => by
    have hn := compareBytes_neg a b
    rintro (h' | ⟨rfl, h'⟩)
    · rcases h with h | ⟨rfl, h⟩
      · omega
      · omega
    · rcases h with h | ⟨_, h⟩
      · omega
      · exact earlier_asymm h h'

theorem mem_order {fs : FS} (hok : fs.Ok) (f : Nat) : ∀ q : Place, fs.get q ≠ none → (∀ x, fs.get x ≠ none → q <+: x → x.length < q.length + f) →
    ∀ x, x ∈ order fs f q ↔ q <+: x ∧ fs.get x ≠ none := by
  induction f with
  | zero => intro q hq hd; exact absurd (hd q hq (List.prefix_refl _)) (Nat.lt_irrefl _)
  | succ f ih =>
    intro q hq hd x
    -- a proper descendant has its first step in the directory
    have step : ∀ x, q <+: x → x ≠ q → fs.get x ≠ none → ∃ n, q ++ [n] <+: x ∧ fs.get (q ++ [n]) ≠ none ∧ fs.get q = some .dir := by
      intro x hp hne hx
      obtain ⟨y, rfl⟩ := hp
      cases y with
      | nil => simp at hne
      | cons n y =>
        have up : ∀ (y : Place), fs.get (q ++ n :: y) ≠ none → fs.get (q ++ [n]) ≠ none := by
          intro y
          induction hk : y.length generalizing y with
          | zero => obtain rfl := List.length_eq_zero_iff.mp hk; exact id
          | succ k ihy =>
            intro h
            rcases List.eq_nil_or_concat y with rfl | ⟨z, m, rfl⟩
            · simp at hk
            · refine ihy z (by simpa using hk) ?_
              have := (hok _ h).2
              rw [show q ++ n :: z.concat m = (q ++ n :: z) ++ [m] by simp, List.dropLast_concat] at this
              rw [this]; simp
        have h1 := up y hx
        refine ⟨n, ⟨y, by simp⟩, h1, ?_⟩
        have := (hok _ h1).2
        rwa [List.dropLast_concat] at this
    simp only [order, List.mem_cons]
    constructor
    · rintro (rfl | hx)
      · exact ⟨List.prefix_refl _, hq⟩
      · cases hr : fs.readDir q with
        | none => simp [hr] at hx
        | some l =>
          simp only [hr] at hx
          obtain ⟨n, hn, hx⟩ := List.mem_flatMap.mp hx
          have hqd : fs.get q = some .dir := by
            simp only [FS.readDir] at hr
            split at hr
            · assumption
            · cases hr
          obtain ⟨l', l1, _, l3⟩ := readDir_spec hqd
          rw [hr] at l1; cases l1
          obtain ⟨h1, h2⟩ := (ih (q ++ [n]) ((l3 n).mp hn) (fun z hz hp => by have := hd z hz (snoc_prefix hp).1; simp; omega) x).mp hx
          exact ⟨(snoc_prefix h1).1, h2⟩
    · rintro ⟨hp, hx⟩
      by_cases hne : x = q
      · exact .inl hne
      · right
        obtain ⟨n, h1, h2, h3⟩ := step x hp hne hx
        obtain ⟨l, l1, _, l3⟩ := readDir_spec h3
        rw [l1]
        exact List.mem_flatMap.mpr ⟨n, (l3 n).mpr h2, (ih (q ++ [n]) h2 (fun z hz hp => by have := hd z hz (snoc_prefix hp).1; simp; omega) x).mpr ⟨h1, hx⟩⟩

theorem order_sorted (fs : FS) (f : Nat) : ∀ q : Place, (order fs f q).Pairwise Earlier := by
  induction f with
  | zero => intro q; simp [order]
  | succ f ih =>
    intro q
    simp only [order]
    cases hr : fs.readDir q with
    | none => simp
    | some l =>
      simp only
      have hqd : fs.get q = some .dir := by
        simp only [FS.readDir] at hr
        split at hr
        · assumption
        · cases hr
      obtain ⟨l', l1, l2, _⟩ := readDir_spec hqd
      rw [hr] at l1; cases l1
      refine List.pairwise_cons.mpr ⟨fun x hx => ?_, ?_⟩
      · obtain ⟨n, _, hx⟩ := List.mem_flatMap.mp hx
        obtain ⟨y, rfl⟩ := order_below fs f _ x hx
        have := (earlier_append q (a := []) (b := n :: y)).mpr trivial
        simpa using this
      · rw [List.pairwise_flatMap]
        refine ⟨fun n _ => ih _, l2.imp fun {a b} hab x hx y hy => ?_⟩
        obtain ⟨u, rfl⟩ := order_below fs f _ x hx
        obtain ⟨v, rfl⟩ := order_below fs f _ y hy
        simp only [List.append_assoc]
        exact (earlier_append q).mpr (.inl hab)

/-! ## A run -/

/-- `q` is to be written to the place `x`. -/
def Target (L : Libs X) (wd : Bytes) (d : Val X) (q x : Place) : Prop := ∃ o, L.expand d (absText q) = some o ∧ x = resolve wd o

/-- The process ended in this world, one way or the other. -/
def Ending.In : Ending → World → Prop
  | .done w, w' => w' = w
  | .fatal w, w' => w' = w
  | .more, _ => False

theorem dir_stays {q : Place} {fs fs' : FS} {x : Place} (h : Change L wd d q fs fs' x) (hx : fs.get x = some .dir) : fs'.get x = some .dir := by
  rcases h with e | ⟨_, _, _, _, e, _⟩ | ⟨_, _, _, _, _, e, _⟩
  · rw [e, hx]
  · rw [hx] at e; cases e
  · exact absurd hx e

/-- What can have become of a place after steps for entries of `l`. -/
def Fate (L : Libs X) (wd : Bytes) (d : Val X) (l : List Place) (fs0 fs fs' : FS) (x : Place) : Prop :=
  fs'.get x = fs.get x ∨
  (fs.get x = none ∧ fs'.get x = some .dir ∧ ∃ q ∈ l, fs0.get q = some .dir ∧ ∃ y, Target L wd d q y ∧ x <+: y) ∨
  (fs.get x ≠ some .dir ∧ ∃ q ∈ l, Target L wd d q x ∧ ∃ b0, fs0.get q = some (.file b0) ∧ ∃ t ok, L.fill d (absText q) b0 = some (t, ok) ∧
    fs'.get x = some (.file t))

theorem fate_one {P : Place} {fs0 fs fs' : FS} {q : Place} (hq : P <+: q) (hg : Agree P fs0 fs) {x : Place} (h : Change L wd d q fs fs' x) (l : List Place) :
    Fate L wd d (q :: l) fs0 fs fs' x := by
  rcases h with e | ⟨e0, o, e1, e2, e3, e4⟩ | ⟨b, e0, o, e1, e2, e3, t, ok, e4, e5⟩
  · exact .inl e
  · exact .inr (.inl ⟨e3, e4, q, by simp, by rw [← hg q hq, e0], _, ⟨o, e1, rfl⟩, e2⟩)
  · exact .inr (.inr ⟨e3, q, by simp, ⟨o, e1, e2⟩, b, by rw [← hg q hq, e0], t, ok, e4, e5⟩)

theorem Fate.trans {q : Place} {l : List Place} {fs0 fs fs1 fs' : FS} {x : Place} (h1 : Fate L wd d [q] fs0 fs fs1 x) (h2 : Fate L wd d l fs0 fs1 fs' x) :
    Fate L wd d (q :: l) fs0 fs fs' x := by
  have m1 : ∀ {p}, p ∈ [q] → p ∈ q :: l := fun h => by simp at h; simp [h]
  have m2 : ∀ {p}, p ∈ l → p ∈ q :: l := fun h => by simp [h]
  rcases h2 with e | ⟨e1, e2, p, hp, e3⟩ | ⟨e1, p, hp, e2⟩
  · rcases h1 with k | ⟨k1, k2, p, hp, k3⟩ | ⟨k1, p, hp, k2, b, k3, t, ok, k4, k5⟩
    · exact .inl (e.trans k)
    · exact .inr (.inl ⟨k1, e.trans k2, p, m1 hp, k3⟩)
    · exact .inr (.inr ⟨k1, p, m1 hp, k2, b, k3, t, ok, k4, e.trans k5⟩)
  · rcases h1 with k | ⟨k1, k2, _⟩ | ⟨k1, p, hp, k2, b, k3, t, ok, k4, k5⟩
    · exact .inr (.inl ⟨k ▸ e1, e2, p, m2 hp, e3⟩)
    · rw [e1] at k2; cases k2
    · rw [e1] at k5; cases k5
  · rcases h1 with k | ⟨k1, k2, _⟩ | ⟨k1, _⟩
    · exact .inr (.inr ⟨k ▸ e1, p, m2 hp, e2⟩)
    · exact absurd k2 e1
    · exact .inr (.inr ⟨k1, p, m2 hp, e2⟩)

/-- A run of steps never stops in between without an ending, and changes only what its targets say. -/
theorem runAll_fate {P : Place} {fs0 : FS} (ha : Apart L wd d P fs0) (l : List Place) (hl : ∀ q ∈ l, P <+: q) (w : World) (hg : Agree P fs0 w.fs) :
    ∃ w', (runAll L wd d pre l w).In w' ∧ ∀ x, Fate L wd d l fs0 w.fs w'.fs x := by
  induction l generalizing w with
  | nil => exact ⟨w, rfl, fun x => .inl rfl⟩
  | cons q l ih =>
    simp only [runAll]
    have hs := one_spec (L := L) (wd := wd) (d := d) (pre := pre) q w
    revert hs
    generalize one L wd d pre q w = r
    intro hs
    have hq := hl q (by simp)
    have go : ∀ w1 : World, (∀ x, Change L wd d q w.fs w1.fs x) → ∃ w', (runAll L wd d pre l w1).In w' ∧ ∀ x, Fate L wd d (q :: l) fs0 w.fs w'.fs x := by
      intro w1 hc
      obtain ⟨w', h1, h2⟩ := ih (fun q hq => hl q (by simp [hq])) w1 (agree_change hq ha hg hc)
      exact ⟨w', h1, fun x => (fate_one hq hg (hc x) []).trans (h2 x)⟩
    cases hs with
    | fatal hc => exact ⟨_, rfl, fun x => fate_one hq hg (hc x) l⟩
    | dir _ _ _ hc => exact go _ hc
    | file _ _ _ _ hc => exact go _ hc

/-- The lines for an entry. -/
def linesFor (L : Libs X) (d : Val X) (pre : List Bytes) (fs0 : FS) (q : Place) : List LogLine :=
  let rel := relOf pre (absText q)
  [.executing rel, match fs0.get q with
    | some .dir => .directory rel (relOf pre ((L.expand d (absText q)).getD []))
    | _ => .file rel (relOf pre ((L.expand d (absText q)).getD []))]

/-- A run that ended normally has produced every target; among several files with the same target the last one counts. -/
theorem runAll_done {P : Place} {fs0 : FS} (ha : Apart L wd d P fs0) (l : List Place) (hl : ∀ q ∈ l, P <+: q) {w w' : World} (hg : Agree P fs0 w.fs)
    (h : runAll L wd d pre l w = .done w') :
    w'.log = w.log ++ l.flatMap (linesFor L d pre fs0) ∧
    (∀ x, w.fs.get x = some .dir → w'.fs.get x = some .dir) ∧
    (∀ q ∈ l, ∃ o, L.expand d (absText q) = some o ∧ o ≠ absText q ∧
      (fs0.get q = some .dir → ∀ x, x <+: resolve wd o → w'.fs.get x = some .dir) ∧
      (fs0.get q ≠ some .dir → ∃ b t, fs0.get q = some (.file b) ∧ L.fill d (absText q) b = some (t, true))) ∧
    (∀ x, (∃ q ∈ l, fs0.get q ≠ some .dir ∧ Target L wd d q x) → ∃ l1 q l2 b t, l = l1 ++ q :: l2 ∧ Target L wd d q x ∧ fs0.get q = some (.file b) ∧
      L.fill d (absText q) b = some (t, true) ∧ w'.fs.get x = some (.file t) ∧ ∀ p ∈ l2, fs0.get p ≠ some .dir → ¬ Target L wd d p x) ∧
    (∀ x, (∀ q ∈ l, fs0.get q ≠ some .dir → ¬ Target L wd d q x) → ∀ b, w.fs.get x = some (.file b) → w'.fs.get x = some (.file b)) := by
  induction l generalizing w with
  | nil =>
    cases h
    exact ⟨by simp, fun x h => h, by simp, by rintro x ⟨q, hq, _⟩; simp at hq, fun x _ b h => h⟩
  | cons q l ih =>
    simp only [runAll] at h
    have hs := one_spec (L := L) (wd := wd) (d := d) (pre := pre) q w
    revert h hs
    generalize one L wd d pre q w = r
    intro h hs
    have hq := hl q (by simp)
    have hl' : ∀ q ∈ l, P <+: q := fun q hq => hl q (by simp [hq])
    revert h
    cases hs with
    | fatal => intro h; cases h
    | @dir w1 o h0 h1 h2 hc hd hlog =>
      intro h
      have hq0 : fs0.get q = some .dir := by rw [← hg q hq]; exact h0
      obtain ⟨i1, i2, i3, i4, i5⟩ := ih hl' (agree_change hq ha hg hc) h
      refine ⟨?_, fun x hx => i2 x (dir_stays (hc x) hx), fun p hp => ?_, fun x hx => ?_, fun x hx b hb => ?_⟩
      · rw [i1, hlog]; simp [linesFor, hq0, h1]
      · rcases List.mem_cons.mp hp with rfl | hp
        · exact ⟨o, h1, h2, fun _ x hx => i2 x (hd x hx), fun hn => absurd hq0 hn⟩
        · exact i3 p hp
      · obtain ⟨p, hp, k1, k2⟩ := hx
        rcases List.mem_cons.mp hp with rfl | hp
        · exact absurd hq0 k1
        · obtain ⟨l1, q', l2, b, t, rfl, k3⟩ := i4 x ⟨p, hp, k1, k2⟩
          exact ⟨q :: l1, q', l2, b, t, rfl, k3⟩
      · refine i5 x (fun p hp => hx p (by simp [hp])) b ?_
        rcases hc x with e | ⟨_, _, _, _, e, _⟩ | ⟨_, e, _⟩
        · rw [e, hb]
        · rw [hb] at e; cases e
        · rw [h0] at e; cases e
    | @file w1 o b0 t h0 h1 h2 hb0 hc hd hlog =>
      intro h
      have hq0 : fs0.get q = some (.file b0) := by rw [← hg q hq]; exact h0
      obtain ⟨i1, i2, i3, i4, i5⟩ := ih hl' (agree_change hq ha hg hc) h
      refine ⟨?_, fun x hx => i2 x (dir_stays (hc x) hx), fun p hp => ?_, fun x hx => ?_, fun x hx b hb => ?_⟩
      · rw [i1, hlog]; simp [linesFor, hq0, h1]
      · rcases List.mem_cons.mp hp with rfl | hp
        · exact ⟨o, h1, h2, fun e => by simp [hq0] at e, fun _ => ⟨b0, t, hq0, hb0⟩⟩
        · exact i3 p hp
      · by_cases hm : ∃ p ∈ l, fs0.get p ≠ some .dir ∧ Target L wd d p x
        · obtain ⟨l1, q', l2, b, t, rfl, k3⟩ := i4 x hm
          exact ⟨q :: l1, q', l2, b, t, rfl, k3⟩
        · obtain ⟨p, hp, k1, k2⟩ := hx
          have hno : ∀ p ∈ l, fs0.get p ≠ some .dir → ¬ Target L wd d p x := fun p hp a b => hm ⟨p, hp, a, b⟩
          rcases List.mem_cons.mp hp with rfl | hp
          · refine ⟨[], p, l, b0, t, rfl, k2, hq0, hb0, i5 x hno t ?_, hno⟩
            obtain ⟨o', e1, e2⟩ := k2
            rw [h1] at e1; cases e1
            rw [e2]; exact hd
          · exact absurd k2 (hno p hp k1)
      · refine i5 x (fun p hp => hx p (by simp [hp])) b ?_
        rcases hc x with e | ⟨_, _, _, _, e, _⟩ | ⟨_, _, o', e1, e2, _⟩
        · rw [e, hb]
        · rw [hb] at e; cases e
        · exact absurd ⟨o', e1, e2⟩ (hx q (by simp) (by rw [hq0]; simp))

/-! ## When a run succeeds -/

theorem one_dir_ok {q : Place} {w : World} {o : Bytes} (h0 : w.fs.get q = some .dir) (h1 : L.expand d (absText q) = some o) (h2 : o ≠ absText q)
    (h3 : ∀ x b, x <+: resolve wd o → w.fs.get x ≠ some (.file b)) : ∃ w', one L wd d pre q w = .done w' := by
  obtain ⟨_, _, c⟩ := mkdirs_spec (resolve wd o) w.fs []
  simp only [one, World.say, h0, h1, if_neg h2, executeDir]
  cases hr : (w.fs.mkdirs [] (resolve wd o)).2 with
  | true => exact ⟨_, rfl⟩
  | false =>
    obtain ⟨x, b, _, k1, k2⟩ := c hr
    exact absurd k2 (h3 x b (by simpa using k1))

theorem one_file_ok {q : Place} {w : World} {o b t : Bytes} (h0 : w.fs.get q = some (.file b)) (h1 : L.expand d (absText q) = some o) (h2 : o ≠ absText q)
    (h3 : L.fill d (absText q) b = some (t, true)) (h4 : w.fs.get (resolve wd o) ≠ some .dir) (h5 : w.fs.get (resolve wd o).dropLast = some .dir) :
    ∃ w', one L wd d pre q w = .done w' := by
  obtain ⟨fs, e⟩ := create_ok h4 h5 t
  simp only [one, World.say, h0, h1, if_neg h2, executeFile, h3, e]
  exact ⟨_, rfl⟩

/-- Nothing stands in the way of the entries of `l`: names and contents can be worked out, directories are not to be made where files are or
will be, files go to directories that are there or are made before. -/
structure Clear (L : Libs X) (wd : Bytes) (d : Val X) (fs0 : FS) (l : List Place) : Prop where
  name : ∀ q ∈ l, ∃ o, L.expand d (absText q) = some o ∧ o ≠ absText q
  body : ∀ q ∈ l, ∀ b, fs0.get q = some (.file b) → ∃ t, L.fill d (absText q) b = some (t, true)
  dirs : ∀ q ∈ l, fs0.get q = some .dir → ∀ x y, Target L wd d q y → x <+: y →
    (∀ b, fs0.get x ≠ some (.file b)) ∧ ∀ p ∈ l, fs0.get p ≠ some .dir → ¬ Target L wd d p x
  files : ∀ q ∈ l, fs0.get q ≠ some .dir → ∀ x, Target L wd d q x → fs0.get x ≠ some .dir ∧
    (fs0.get x.dropLast = some .dir ∨ ∃ p ∈ l, fs0.get p = some .dir ∧ Earlier p q ∧ ∃ y, Target L wd d p y ∧ x.dropLast <+: y)

theorem runAll_ok {P : Place} {fs0 : FS} (ha : Apart L wd d P fs0) (l : List Place) (hl : ∀ q ∈ l, P <+: q ∧ fs0.get q ≠ none)
    (hs : l.Pairwise Earlier) (hc : Clear L wd d fs0 l) (w : World) (hw : w.fs = fs0) : ∃ w', runAll L wd d pre l w = .done w' := by
  have key : ∀ l1 l2, l = l1 ++ l2 → ∃ w', runAll L wd d pre l1 w = .done w' := by
    intro l1
    induction hk : l1.length generalizing l1 with
    | zero => obtain rfl := List.length_eq_zero_iff.mp hk; exact fun _ _ => ⟨w, rfl⟩
    | succ k ih =>
      intro l2 e
      rcases List.eq_nil_or_concat l1 with rfl | ⟨z, q, rfl⟩
      · simp at hk
      · simp only [List.concat_eq_append] at hk e ⊢
        have e' : l = z ++ q :: l2 := by simpa using e
        obtain ⟨w1, h1⟩ := ih z (by simpa using hk) (q :: l2) e'
        have hg : Agree P fs0 w.fs := by rw [hw]; exact fun x _ => rfl
        have hzm : ∀ p ∈ z, p ∈ l := fun p hp => by rw [e']; simp [hp]
        have hz : ∀ p ∈ z, P <+: p := fun p hp => (hl p (hzm p hp)).1
        have hql : q ∈ l := by rw [e']; simp
        have hg1 := agree_runAll ha z hz hg h1
        obtain ⟨w1', k1, k2⟩ := runAll_fate (pre := pre) ha z hz w hg
        rw [h1] at k1
        cases k1
        obtain ⟨_, d2, d3, _, _⟩ := runAll_done ha z hz hg h1
        rw [hw] at k2 d2
        rw [runAll_append, h1]
        simp only [runAll]
        suffices ∃ w', one L wd d pre q w1 = .done w' by
          obtain ⟨w', h⟩ := this
          rw [h]; exact ⟨w', rfl⟩
        obtain ⟨o, n1, n2⟩ := hc.name q hql
        have hgq := hg1 q (hl q hql).1
        cases hq : fs0.get q with
        | none => exact absurd hq (hl q hql).2
        | some en =>
          rw [hq] at hgq
          cases en with
          | dir =>
            refine one_dir_ok hgq n1 n2 fun x b hx hb => ?_
            obtain ⟨c1, c2⟩ := hc.dirs q hql hq x _ ⟨o, n1, rfl⟩ hx
            rcases k2 x with k | ⟨_, k, _⟩ | ⟨_, p, hp, k, b0, k3, _⟩
            · rw [k] at hb; exact c1 b hb
            · rw [hb] at k; cases k
            · exact c2 p (hzm p hp) (by rw [k3]; simp) k
          | file b =>
            obtain ⟨t, ht⟩ := hc.body q hql b hq
            have hqn : fs0.get q ≠ some .dir := by rw [hq]; simp
            obtain ⟨c1, c2⟩ := hc.files q hql hqn _ ⟨o, n1, rfl⟩
            refine one_file_ok hgq n1 n2 ht (fun hx => ?_) ?_
            · rcases k2 (resolve wd o) with k | ⟨_, _, p, hp, k3, y, k4, k5⟩ | ⟨_, _, _, _, _, _, _, _, _, k⟩
              · rw [k] at hx; exact c1 hx
              · exact (hc.dirs p (hzm p hp) k3 _ y k4 k5).2 q hql hqn ⟨o, n1, rfl⟩
              · rw [hx] at k; cases k
            · rcases c2 with c2 | ⟨p, hp, c3, c4, y, ⟨o', c5, rfl⟩, c6⟩
              · exact d2 _ c2
              · have hpz : p ∈ z := by
                  rw [e'] at hp hs
                  rcases List.mem_append.mp hp with hp | hp
                  · exact hp
                  · exfalso
                    rcases List.mem_cons.mp hp with rfl | hp
                    · exact earlier_irrefl _ c4
                    · have := (List.pairwise_cons.mp (List.pairwise_append.mp hs).2.1).1 p hp
                      exact earlier_asymm c4 this
                obtain ⟨o2, e1, _, e3, _⟩ := d3 p hpz
                rw [c5] at e1; cases e1
                exact e3 c3 _ c6
  exact key l [] (by simp)

end Verif.Etc
