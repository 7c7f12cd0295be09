import Verif.Etc.FileLemmas

/-! # `execute` as a sequence of steps, one for each entry of the catalog -/

namespace Verif.Etc
open Verif Verif.Path
variable {X : Type}

/-- The relative name shown. -/
def relOf (pre : List Bytes) (p : Bytes) : Bytes := if hasPrefix (components p) pre then Join ((components p).drop pre.length) else Base p

theorem getRelName_eq (p : Bytes) (pre : List Bytes) : getRelName p pre = some (relOf pre p) := by
  simp [getRelName, fullSplit_spec, relOf]

variable (L : Libs X) (wd : Bytes) (d : Val X) (pre : List Bytes)

/-- What `execute` does at one entry, without going down. -/
def one (q : Place) (w : World) : Ending :=
  let w := w.say (.executing (relOf pre (absText q)))
  match w.fs.get q with
  | none => .fatal w
  | some fi =>
    match L.expand d (absText q) with
    | none => .fatal w
    | some o =>
      if o = absText q then .fatal w
      else
        match fi with
        | .dir =>
          match executeDir (w.say (.directory (relOf pre (absText q)) (relOf pre o))) (resolve wd o) with
          | (w, false) => .fatal w
          | (w, true) => .done w
        | .file _ => executeFile L d (w.say (.file (relOf pre (absText q)) (relOf pre o))) (resolve wd o) (absText q) q

/-- The entries at and below a place in the order of the walk. -/
def order (fs : FS) : Nat → Place → List Place
  | 0, _ => []
  | f + 1, q => q :: match fs.readDir q with
    | some l => l.flatMap fun n => order fs f (q ++ [n])
    | none => []

/-- The steps for a list of entries. -/
def runAll : List Place → World → Ending
  | [], w => .done w
  | q :: l, w =>
    match one L wd d pre q w with
    | .done w => runAll l w
    | e => e

theorem runAll_append (l m : List Place) (w : World) : runAll L wd d pre (l ++ m) w =
    match runAll L wd d pre l w with
    | .done w => runAll L wd d pre m w
    | e => e := by
  induction l generalizing w with
  | nil => rfl
  | cons q l ih =>
    simp only [List.cons_append, runAll]
    cases one L wd d pre q w with
    | done w => simp [ih]
    | fatal w => rfl
    | more => rfl

/-- Every entry has a usable name and lies in a directory. -/
def FS.Ok (fs : FS) : Prop := ∀ x, fs.get x ≠ none → Named x ∧ fs.get x.dropLast = some .dir

/-- The same at and below a place. -/
def Agree (P : Place) (fs0 fs : FS) : Prop := ∀ x, P <+: x → fs.get x = fs0.get x

/-- No entry of the catalog at `P` is to be written into the catalog. -/
def Apart (P : Place) (fs : FS) : Prop := ∀ q o, P <+: q → fs.get q ≠ none → L.expand d (absText q) = some o → ¬ P <+: resolve wd o

variable {L wd d pre}

/-- The effect of one step on the files. -/
def Change (L : Libs X) (wd : Bytes) (d : Val X) (q : Place) (fs fs' : FS) (x : Place) : Prop :=
  fs'.get x = fs.get x ∨
  (fs.get q = some .dir ∧ ∃ o, L.expand d (absText q) = some o ∧ x <+: resolve wd o ∧ fs.get x = none ∧ fs'.get x = some .dir) ∨
  ∃ b0, fs.get q = some (.file b0) ∧ ∃ o, L.expand d (absText q) = some o ∧ x = resolve wd o ∧ fs.get x ≠ some .dir ∧
    ∃ t ok, L.fill d (absText q) b0 = some (t, ok) ∧ fs'.get x = some (.file t)

/-- Everything one step can do. -/
inductive OneSpec (L : Libs X) (wd : Bytes) (d : Val X) (pre : List Bytes) (q : Place) (w : World) : Ending → Prop
  | fatal {w' : World} (h : ∀ x, Change L wd d q w.fs w'.fs x) (hl : ∃ l, w'.log = w.log ++ l) : OneSpec L wd d pre q w (.fatal w')
  | dir {w' : World} {o : Bytes} (h0 : w.fs.get q = some .dir) (h1 : L.expand d (absText q) = some o) (h2 : o ≠ absText q)
      (h : ∀ x, Change L wd d q w.fs w'.fs x) (hd : ∀ x, x <+: resolve wd o → w'.fs.get x = some .dir)
      (hl : w'.log = w.log ++ [.executing (relOf pre (absText q)), .directory (relOf pre (absText q)) (relOf pre o)]) : OneSpec L wd d pre q w (.done w')
  | file {w' : World} {o b t : Bytes} (h0 : w.fs.get q = some (.file b)) (h1 : L.expand d (absText q) = some o) (h2 : o ≠ absText q)
      (hb : L.fill d (absText q) b = some (t, true)) (h : ∀ x, Change L wd d q w.fs w'.fs x) (hd : w'.fs.get (resolve wd o) = some (.file t))
      (hl : w'.log = w.log ++ [.executing (relOf pre (absText q)), .file (relOf pre (absText q)) (relOf pre o)]) : OneSpec L wd d pre q w (.done w')

theorem one_spec (q : Place) (w : World) : OneSpec L wd d pre q w (one L wd d pre q w) := by
  simp only [one, World.say]
  cases h0 : w.fs.get q with
  | none => exact .fatal (fun x => .inl rfl) ⟨_, rfl⟩
  | some fi =>
    dsimp only
    cases h1 : L.expand d (absText q) with
    | none => exact .fatal (fun x => .inl rfl) ⟨_, rfl⟩
    | some o =>
      dsimp only
      by_cases h2 : o = absText q
      · rw [if_pos h2]; exact .fatal (fun x => .inl rfl) ⟨_, rfl⟩
      · rw [if_neg h2]
        cases fi with
        | dir =>
          obtain ⟨a, b, c⟩ := mkdirs_spec (resolve wd o) w.fs []
          simp only [executeDir]
          have hch : ∀ x, Change L wd d q w.fs (w.fs.mkdirs [] (resolve wd o)).1 x := by
            intro x
            rcases a x with h | ⟨k1, _, k3, _, k5⟩
            · exact .inl h
            · exact .inr (.inl ⟨h0, o, h1, by simpa using k3, k1, k5⟩)
          cases hr : (w.fs.mkdirs [] (resolve wd o)).2 with
          | false => exact .fatal hch ⟨_, by simp only [List.append_assoc]; rfl⟩
          | true =>
            refine .dir h0 h1 h2 hch (fun x hx => ?_) (by simp)
            by_cases hx0 : x = []
            · subst hx0; rfl
            · exact b hr x (List.nil_prefix) (by simpa using hx) hx0
        | file bs =>
          simp only [executeFile, h0]
          cases h3 : L.fill d (absText q) bs with
          | none => exact .fatal (fun x => .inl rfl) ⟨_, by simp only [List.append_assoc]; rfl⟩
          | some r =>
            obtain ⟨t, ok⟩ := r
            dsimp only
            cases h4 : w.fs.create (resolve wd o) t with
            | none => exact .fatal (fun x => .inl rfl) ⟨_, by simp only [List.append_assoc]; rfl⟩
            | some fs =>
              obtain ⟨k1, _, k3⟩ := create_spec h4
              have hch : ∀ x, Change L wd d q w.fs fs x := by
                intro x
                by_cases hx : x = resolve wd o
                · exact .inr (.inr ⟨bs, h0, o, h1, hx, by rw [hx]; exact k1, t, ok, h3, by rw [k3, if_pos hx]⟩)
                · exact .inl (by rw [k3, if_neg hx])
              cases ok with
              | false => exact .fatal hch ⟨_, by simp only [List.append_assoc]; rfl⟩
              | true => exact .file h0 h1 h2 h3 hch (by rw [k3, if_pos rfl]) (by simp)

theorem agree_change {P : Place} {fs0 fs fs' : FS} {q : Place} (hq : P <+: q) (ha : Apart L wd d P fs0) (hg : Agree P fs0 fs)
    (h : ∀ x, Change L wd d q fs fs' x) : Agree P fs0 fs' := by
  intro x hx
  have hne : ∀ {e}, fs.get q = some e → fs0.get q ≠ none := fun h => by rw [← hg q hq, h]; simp
  rcases h x with e | ⟨e0, o, e1, e2, _⟩ | ⟨b, e0, o, e1, e2, _⟩
  · rw [e, hg x hx]
  · exact absurd (hx.trans e2) (ha q o hq (hne e0) e1)
  · exact absurd (e2 ▸ hx) (ha q o hq (hne e0) e1)

theorem agree_runAll {P : Place} {fs0 : FS} (ha : Apart L wd d P fs0) (l : List Place) (hl : ∀ q ∈ l, P <+: q) {w w' : World}
    (hg : Agree P fs0 w.fs) (h : runAll L wd d pre l w = .done w') : Agree P fs0 w'.fs := by
  induction l generalizing w with
  | nil => cases h; exact hg
  | cons q l ih =>
    simp only [runAll] at h
    have hs := one_spec (L := L) (wd := wd) (d := d) (pre := pre) q w
    revert h hs
    generalize one L wd d pre q w = r
    intro h hs
    revert h
    cases hs with
    | fatal => intro h; cases h
    | dir _ _ _ hc => exact fun h => ih (fun q hq => hl q (by simp [hq])) (agree_change (hl q (by simp)) ha hg hc) h
    | file _ _ _ _ hc => exact fun h => ih (fun q hq => hl q (by simp [hq])) (agree_change (hl q (by simp)) ha hg hc) h

theorem order_below (fs : FS) (f : Nat) (q : Place) : ∀ x ∈ order fs f q, q <+: x := by
  induction f generalizing q with
  | zero => simp [order]
  | succ f ih =>
    intro x hx
    simp only [order, List.mem_cons] at hx
    rcases hx with rfl | hx
    · exact List.prefix_refl _
    · revert hx
      cases fs.readDir q with
      | none => simp
      | some l =>
        intro hx
        obtain ⟨n, _, hn⟩ := List.mem_flatMap.mp hx
        exact (snoc_prefix (ih _ x hn)).1

/-- The walk is the sequence of steps in the order of the catalog as it was at the start. -/
theorem execute_eq {P : Place} {fs0 : FS} (hok : fs0.Ok) (ha : Apart L wd d P fs0) (f : Nat) : ∀ (q : Place), P <+: q → Named q →
    (∀ x, fs0.get x ≠ none → q <+: x → x.length < q.length + f) → fs0.get q ≠ none → ∀ w : World, Agree P fs0 w.fs →
    execute L wd d pre f (absText q) w = runAll L wd d pre (order fs0 f q) w := by
  induction f with
  | zero => intro q _ _ hd hq; exact absurd (hd q hq (List.prefix_refl _)) (Nat.lt_irrefl _)
  | succ f ih =>
    intro q hP hN hd hq w hg
    have hone := one_spec (L := L) (wd := wd) (d := d) (pre := pre) q w
    simp only [execute, abs_absText wd hN, getRelName_eq, resolve_absText wd hN, order, runAll]
    simp only [one, World.say] at hone ⊢
    cases h0 : w.fs.get q with
    | none => exact absurd ((hg q hP).symm.trans h0) hq
    | some fi =>
      simp only [h0] at hone ⊢
      cases h1 : L.expand d (absText q) with
      | none => rfl
      | some o =>
        simp only [h1] at hone ⊢
        by_cases h2 : o = absText q
        · simp [h2]
        · simp only [if_neg h2] at hone ⊢
          cases fi with
          | dir =>
            simp only at hone ⊢
            generalize executeDir _ _ = r at hone ⊢
            obtain ⟨w1, ok⟩ := r
            cases ok with
            | false => rfl
            | true =>
              simp only at hone ⊢
              have hch : ∀ x, Change L wd d q w.fs w1.fs x := by
                cases hone with
                | dir _ _ _ h => exact h
                | file _ _ _ _ h => exact h
              have hg1 := agree_change hP ha hg hch
              rw [readDir_congr (hg1 q hP) fun n => hg1 _ (hP.trans (List.prefix_append _ _))]
              have hqd : fs0.get q = some .dir := by rw [← hg q hP]; exact h0
              obtain ⟨l, l1, l2, l3⟩ := readDir_spec hqd
              rw [l1]
              simp only
              have hitems : ∀ n ∈ l, fs0.get (q ++ [n]) ≠ none := fun n hn => (l3 n).mp hn
              clear l1 l2 l3 hone hch
              induction l generalizing w1 with
              | nil => rfl
              | cons n l ihl =>
                have hn := hitems n (by simp)
                have hNn := (hok _ hn).1
                have hPn : P <+: q ++ [n] := hP.trans (List.prefix_append _ _)
                have e1 := ih (q ++ [n]) hPn hNn (fun x hx hp => by
                  have := hd x hx (snoc_prefix hp).1
                  simp; omega) hn w1 hg1
                simp only [each, List.flatMap_cons, runAll_append, join_item hNn, e1]
                cases hr : runAll L wd d pre (order fs0 f (q ++ [n])) w1 with
                | done w2 =>
                  simp only
                  exact ihl _ (agree_runAll ha _ (fun x hx => hPn.trans (order_below fs0 f _ x hx)) hg1 hr) fun m hm => hitems m (by simp [hm])
                | fatal w2 => rfl
                | more => rfl
          | file b =>
            simp only at hone ⊢
            have hqf : fs0.get q = some (.file b) := by rw [← hg q hP]; exact h0
            have : fs0.readDir q = none := by simp [FS.readDir, hqf]
            rw [this]
            generalize executeFile _ _ _ _ _ _ = r at hone ⊢
            cases r <;> rfl

end Verif.Etc
