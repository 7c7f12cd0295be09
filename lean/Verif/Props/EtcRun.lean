import Verif.Etc.Outcome
import Verif.Props.Etc

/-!
# Properties of a whole run of the template tool

`L` are the libraries (YAML, templates), arbitrary functions.  `load` says which data is selected.  The catalog is the entry at
`resolve wd t`, where the option `-t` leads, and everything below it.
-/

namespace Verif.Props
open Verif Verif.Etc Verif.Path Verif.Catalog
variable {X : Type}

/-- `q` is an entry of the catalog at `P`. -/
def InCatalog (fs : FS) (P q : Place) : Prop := P <+: q ∧ fs.get q ≠ none

/-- The catalog entry `q` is to be written to the place `x`: its full name, worked out as a template, leads there. -/
def WrittenTo (L : Libs X) (wd : Bytes) (d : Val X) (q x : Place) : Prop := ∃ o, L.expand d (absText q) = some o ∧ x = resolve wd o

/-- A file tree: usable names, and every entry lies in a directory. -/
def FilesOk (fs : FS) : Prop := ∀ x, fs.get x ≠ none → (∀ c ∈ x, c ≠ [] ∧ (47 : UInt8) ∉ c ∧ c ≠ dot1 ∧ c ≠ dot2) ∧ fs.get x.dropLast = some .dir

/-- The results go outside the catalog. -/
def Outside (L : Libs X) (wd : Bytes) (d : Val X) (P : Place) (fs : FS) : Prop :=
  ∀ q x, InCatalog fs P q → WrittenTo L wd d q x → ¬ P <+: x

theorem FilesOk.ok {fs : FS} (h : FilesOk fs) : fs.Ok := fun x hx =>
  ⟨fun c hc => have k := (h x hx).1 c hc; ⟨k.1, k.2.1, k.2.2.1, k.2.2.2⟩, (h x hx).2⟩

theorem Outside.apart {L : Libs X} {wd : Bytes} {d : Val X} {P : Place} {fs : FS} (h : Outside L wd d P fs) : Apart L wd d P fs :=
  fun q o h1 h2 h3 => h q _ ⟨h1, h2⟩ ⟨o, h3, rfl⟩

theorem depth_bound (fs : FS) : ∃ N, ∀ x, fs.get x ≠ none → x.length < N := by
  have : ∃ N, ∀ x : Place, fs.find x ≠ none → x.length < N := by
    induction fs with
    | nil => exact ⟨0, fun x h => by simp [FS.find] at h⟩
    | cons y fs ih =>
      obtain ⟨q, e⟩ := y
      obtain ⟨N, h⟩ := ih
      refine ⟨max N (q.length + 1), fun x hx => ?_⟩
      simp only [FS.find] at hx
      split at hx
      · rename_i e; subst e; omega
      · have := h x hx; omega
  obtain ⟨N, h⟩ := this
  refine ⟨N + 1, fun x hx => ?_⟩
  by_cases h0 : x = []
  · subst h0; simp
  · have := h x (by simpa [FS.get, h0] using hx); omega

/-- The prefix the tool computes is the directory of the template. -/
theorem makePrefix_place {wd : Bytes} (hwd : Rooted wd) {t : Bytes} (hP : resolve wd t ≠ []) :
    makePrefix wd t = some ([47] :: (resolve wd t).dropLast) := by
  have hN := resolve_named hwd t
  obtain ⟨l, f, e⟩ : ∃ l f, resolve wd t = l ++ [f] := ⟨_, _, (List.dropLast_concat_getLast hP).symm⟩
  rw [e] at hN
  have hNl : Normal True l := (hN.normal True).init
  have hf := hN f (by simp)
  have hs := split_text (hN.normal True)
  have ht : text True (l ++ [f]) = Abs wd t := by rw [abs_resolve hwd, e]; simp [text, absText]
  rw [ht] at hs
  have hr : Rooted (dirText True l) := by simp [dirText, Rooted]
  have hpl : place (dirText True l) = l := by
    have hno := hNl.nosl
    refine (clean_of (rooted := True) (by simp [hr]) hNl ?_).1
    by_cases h0 : l = []
    · simp [dirText, h0, pieces]
    · have : dirText True l = [] ++ 47 :: (joined l ++ 47 :: []) := by simp [dirText, h0]
      rw [this, pieces_sep, pieces_sep, pieces_joined (fun c hc => (hno c hc).1) h0, List.filter_append, List.filter_append,
        filter_ne (fun c hc => (hno c hc).2)]
      simp [pieces]
  rw [makePrefix, hs, if_neg (by simpa using hf.ne), fullSplit_spec]
  simp [components, hr, hpl, e]

theorem main_eq {L : Libs X} {wd t data path : Bytes} {d : Val X} (hwd : Rooted wd) {w : World} (hok : FilesOk w.fs)
    (ht : t ≠ []) (hd : load L wd w.fs data path = some d) (hP : resolve wd t ≠ []) (hx : w.fs.get (resolve wd t) ≠ none)
    (ho : Outside L wd d (resolve wd t) w.fs) {f : Nat} (hf : ∀ x, w.fs.get x ≠ none → x.length < f) :
    main L wd t data path f w = runAll L wd d ([47] :: (resolve wd t).dropLast) (order w.fs f (resolve wd t)) w := by
  have hN := resolve_named hwd t
  have e := execute_eq (pre := [47] :: (resolve wd t).dropLast) hok.ok ho.apart f (resolve wd t) (List.prefix_refl _) hN
    (fun x k _ => by have := hf x k; omega) hx w (fun x _ => rfl)
  rw [← e, main, if_neg (by simpa using ht), hd, makePrefix_place hwd hP]
  cases f with
  | zero => exact absurd (hf _ hx) (by omega)
  | succ f => simp only [execute, abs_resolve hwd t, abs_absText wd hN]

/-- C69: the tool always ends, and however it ends, the catalog is as it was, nothing has disappeared, and the only other changes are:
directories made on the way to the target of a catalog directory, where there was nothing, and files written at the target of a
catalog file, with the text made from this file (as far as it got). -/
theorem C69_changes (L : Libs X) {wd t data path : Bytes} {d : Val X} (hwd : Rooted wd) {w : World} (hok : FilesOk w.fs)
    (ht : t ≠ []) (hd : load L wd w.fs data path = some d) (hP : resolve wd t ≠ []) (hx : w.fs.get (resolve wd t) ≠ none)
    (ho : Outside L wd d (resolve wd t) w.fs) :
    ∃ f0, ∀ f, f0 ≤ f → ∃ w', (main L wd t data path f w = .done w' ∨ main L wd t data path f w = .fatal w') ∧
      (∀ x, resolve wd t <+: x → w'.fs.get x = w.fs.get x) ∧
      ∀ x, w'.fs.get x = w.fs.get x ∨
        (w.fs.get x = none ∧ w'.fs.get x = some .dir ∧
          ∃ q y, InCatalog w.fs (resolve wd t) q ∧ w.fs.get q = some .dir ∧ WrittenTo L wd d q y ∧ x <+: y) ∨
        (w.fs.get x ≠ some .dir ∧ ∃ q b s ok, InCatalog w.fs (resolve wd t) q ∧ w.fs.get q = some (.file b) ∧ WrittenTo L wd d q x ∧
          L.fill d (absText q) b = some (s, ok) ∧ w'.fs.get x = some (.file s)) := by
  obtain ⟨N, hN⟩ := depth_bound w.fs
  refine ⟨N, fun f hf => ?_⟩
  have hf' : ∀ x, w.fs.get x ≠ none → x.length < f := fun x k => by have := hN x k; omega
  rw [main_eq hwd hok ht hd hP hx ho hf']
  have hm := mem_order hok.ok f (resolve wd t) hx fun x k _ => by have := hf' x k; omega
  obtain ⟨w', h1, h2⟩ := runAll_fate (pre := [47] :: (resolve wd t).dropLast) ho.apart _ (fun q hq => ((hm q).mp hq).1) w (fun x _ => rfl)
  refine ⟨w', ?_, fun x hxP => ?_, fun x => ?_⟩
  · cases hr : runAll L wd d ([47] :: (resolve wd t).dropLast) (order w.fs f (resolve wd t)) w with
    | done w1 => rw [hr] at h1; exact .inl (by rw [show w' = w1 from h1])
    | fatal w1 => rw [hr] at h1; exact .inr (by rw [show w' = w1 from h1])
    | more => rw [hr] at h1; exact h1.elim
  · rcases h2 x with e | ⟨_, _, q, hq, _, y, k1, k2⟩ | ⟨_, q, hq, k, _⟩
    · exact e
    · exact absurd (hxP.trans k2) (ho q y ((hm q).mp hq) k1)
    · exact absurd hxP (ho q x ((hm q).mp hq) k)
  · rcases h2 x with e | ⟨e1, e2, q, hq, e3, y, k1, k2⟩ | ⟨e1, q, hq, k, b, k1, s, ok, k2, k3⟩
    · exact .inl e
    · exact .inr (.inl ⟨e1, e2, q, y, (hm q).mp hq, e3, k1, k2⟩)
    · exact .inr (.inr ⟨e1, q, b, s, ok, (hm q).mp hq, k1, k, k2, k3⟩)

/-- What the log shows for a path: the part below the template's directory, or else the last name. -/
def shown (base : Place) (p : Bytes) : Bytes :=
  if [47] :: base <+: components p then joined ((components p).drop (base.length + 1)) else lastName p

theorem relOf_shown (base : Place) (p : Bytes) : relOf ([47] :: base) p = shown base p := by
  have h := C52_getRelName p ([47] :: base)
  rw [getRelName_eq] at h
  unfold shown
  split
  · rename_i hp
    obtain ⟨rest, hr⟩ := hp
    have := h.1 rest hr.symm
    simp only [Option.some.injEq] at this
    rw [this, ← hr]
    have hd : List.drop (base.length + 1) ([47] :: base ++ rest) = rest := by simp
    rw [hd]
    cases rest with
    | nil => rfl
    | cons c l =>
      have : c ≠ [47] := by
        have hroot : Rooted p := by
          by_cases hR : Rooted p
          · exact hR
          · exfalso
            have hNn := (place_clean p).1.nosl
            simp only [components, if_neg hR] at hr
            split at hr
            · simp [dot1] at hr
            · have := (hNn [47] (by rw [← hr]; simp)).1
              simp at this
        have hc : c ∈ place p := by
          simp only [components, if_pos hroot, List.cons_append, List.cons.injEq, true_and] at hr
          rw [← hr]; simp
        rintro rfl
        have := ((place_clean p).1.nosl _ hc).1
        simp at this
      simp [relText, this]
  · rename_i hp
    have := h.2 fun rest hr => hp ⟨rest, hr.symm⟩
    simpa using this

theorem flatMap_ext {α β : Type} {l : List α} {f g : α → List β} (h : ∀ a ∈ l, f a = g a) : l.flatMap f = l.flatMap g := by
  induction l with
  | nil => rfl
  | cons a l ih => rw [List.flatMap_cons, List.flatMap_cons, h a (by simp), ih fun b hb => h b (by simp [hb])]

/-- C69: when the tool ends normally, it has worked on every entry of the catalog exactly once, directories before what is in them and names in
byte order, and logged it.  Every name could be worked out and differs from the entry's own; every catalog directory has its
target directory; every target of a catalog file is a file with the complete text made from the last catalog file that goes
there (from this file, if no other goes there). -/
theorem C69_done (L : Libs X) {wd t data path : Bytes} {d : Val X} (hwd : Rooted wd) {w : World} (hok : FilesOk w.fs)
    (ht : t ≠ []) (hd : load L wd w.fs data path = some d) (hP : resolve wd t ≠ []) (hx : w.fs.get (resolve wd t) ≠ none)
    (ho : Outside L wd d (resolve wd t) w.fs) :
    ∃ f0, ∀ f, f0 ≤ f → ∀ w', main L wd t data path f w = .done w' → ∃ out : Place → Bytes,
      (∀ q, InCatalog w.fs (resolve wd t) q → L.expand d (absText q) = some (out q) ∧ out q ≠ absText q) ∧
      (∃ l : List Place, l.Pairwise Earlier ∧ (∀ q, q ∈ l ↔ InCatalog w.fs (resolve wd t) q) ∧
        w'.log = w.log ++ l.flatMap fun q =>
          [.executing (shown (resolve wd t).dropLast (absText q)),
           if w.fs.get q = some .dir then .directory (shown (resolve wd t).dropLast (absText q)) (shown (resolve wd t).dropLast (out q))
           else .file (shown (resolve wd t).dropLast (absText q)) (shown (resolve wd t).dropLast (out q))]) ∧
      (∀ q, InCatalog w.fs (resolve wd t) q → w.fs.get q = some .dir → w'.fs.get (resolve wd (out q)) = some .dir) ∧
      (∀ q b, InCatalog w.fs (resolve wd t) q → w.fs.get q = some (.file b) → ∃ q' b' s, InCatalog w.fs (resolve wd t) q' ∧
        w.fs.get q' = some (.file b') ∧ resolve wd (out q') = resolve wd (out q) ∧ L.fill d (absText q') b' = some (s, true) ∧
        w'.fs.get (resolve wd (out q)) = some (.file s) ∧
        ∀ p c, InCatalog w.fs (resolve wd t) p → w.fs.get p = some (.file c) → resolve wd (out p) = resolve wd (out q) → p = q' ∨ Earlier p q') := by
  obtain ⟨N, hN⟩ := depth_bound w.fs
  refine ⟨N, fun f hf w' hw' => ?_⟩
  have hf' : ∀ x, w.fs.get x ≠ none → x.length < f := fun x k => by have := hN x k; omega
  rw [main_eq hwd hok ht hd hP hx ho hf'] at hw'
  have hm := mem_order hok.ok f (resolve wd t) hx fun x k _ => by have := hf' x k; omega
  obtain ⟨h1, h2, h3, h4, h5⟩ := runAll_done ho.apart _ (fun q hq => ((hm q).mp hq).1) (fun x _ => rfl) hw'
  have hout : ∀ q, InCatalog w.fs (resolve wd t) q → L.expand d (absText q) = some ((L.expand d (absText q)).getD []) ∧
      (L.expand d (absText q)).getD [] ≠ absText q := by
    intro q hq
    obtain ⟨o, e1, e2, _⟩ := h3 q ((hm q).mpr hq)
    simp [e1, e2]
  refine ⟨fun q => (L.expand d (absText q)).getD [], hout, ⟨_, order_sorted w.fs f _, hm, ?_⟩, fun q hq hqd => ?_, fun q b hq hqb => ?_⟩
  · rw [h1]
    congr 1
    refine flatMap_ext fun q hq => ?_
    simp only [linesFor, relOf_shown]
    cases hg : w.fs.get q with
    | none => exact absurd hg ((hm q).mp hq).2
    | some e => cases e <;> simp
  · obtain ⟨o, e1, _, e3, _⟩ := h3 q ((hm q).mpr hq)
    simp only [e1, Option.getD_some]
    exact e3 hqd _ (List.prefix_refl _)
  · have hqn : w.fs.get q ≠ some .dir := by rw [hqb]; simp
    obtain ⟨l1, q', l2, b', s, e1, ⟨o, e2, e2'⟩, e3, e4, e5, e6⟩ := h4 (resolve wd ((L.expand d (absText q)).getD []))
      ⟨q, (hm q).mpr hq, hqn, _, (hout q hq).1, rfl⟩
    have hq' : q' ∈ order w.fs f (resolve wd t) := by rw [e1]; simp
    refine ⟨q', b', s, (hm q').mp hq', e3, ?_, e4, e5, fun p c hp hpc he => ?_⟩
    · simp only [e2, Option.getD_some]; exact e2'.symm
    · have hpl := (hm p).mpr hp
      rw [e1] at hpl
      rcases List.mem_append.mp hpl with k | k
      · right
        have := order_sorted w.fs f (resolve wd t)
        rw [e1] at this
        exact (List.pairwise_append.mp this).2.2 p k q' (by simp)
      · rcases List.mem_cons.mp k with rfl | k
        · exact .inl rfl
        · exact absurd ⟨_, (hout p hp).1, he.symm⟩ (e6 p k (by rw [hpc]; simp))

/-- Nothing stands in the way: all names and contents can be worked out; nothing on the way to the target of a directory is a file or the
target of a catalog file; the target of a file is not a directory and the place around it is a directory already or leads to the
target of a catalog directory that is worked on earlier. -/
structure Unblocked (L : Libs X) (wd : Bytes) (d : Val X) (P : Place) (fs : FS) : Prop where
  names : ∀ q, InCatalog fs P q → ∃ o, L.expand d (absText q) = some o ∧ o ≠ absText q
  contents : ∀ q b, InCatalog fs P q → fs.get q = some (.file b) → ∃ s, L.fill d (absText q) b = some (s, true)
  dirs : ∀ q x y, InCatalog fs P q → fs.get q = some .dir → WrittenTo L wd d q y → x <+: y →
    (∀ b, fs.get x ≠ some (.file b)) ∧ ∀ p b, InCatalog fs P p → fs.get p = some (.file b) → ¬ WrittenTo L wd d p x
  files : ∀ q b x, InCatalog fs P q → fs.get q = some (.file b) → WrittenTo L wd d q x → fs.get x ≠ some .dir ∧
    (fs.get x.dropLast = some .dir ∨ ∃ p y, InCatalog fs P p ∧ fs.get p = some .dir ∧ Earlier p q ∧ WrittenTo L wd d p y ∧ x.dropLast <+: y)

/-- C69: if nothing stands in the way, the tool ends normally. -/
theorem C69_succeeds (L : Libs X) {wd t data path : Bytes} {d : Val X} (hwd : Rooted wd) {w : World} (hok : FilesOk w.fs)
    (ht : t ≠ []) (hd : load L wd w.fs data path = some d) (hP : resolve wd t ≠ []) (hx : w.fs.get (resolve wd t) ≠ none)
    (ho : Outside L wd d (resolve wd t) w.fs) (hu : Unblocked L wd d (resolve wd t) w.fs) :
    ∃ f0, ∀ f, f0 ≤ f → ∃ w', main L wd t data path f w = .done w' := by
  obtain ⟨N, hN⟩ := depth_bound w.fs
  refine ⟨N, fun f hf => ?_⟩
  have hf' : ∀ x, w.fs.get x ≠ none → x.length < f := fun x k => by have := hN x k; omega
  rw [main_eq hwd hok ht hd hP hx ho hf']
  have hm := mem_order hok.ok f (resolve wd t) hx fun x k _ => by have := hf' x k; omega
  have isFile : ∀ {q}, q ∈ order w.fs f (resolve wd t) → w.fs.get q ≠ some .dir → ∃ b, w.fs.get q = some (.file b) := by
    intro q hq hn
    cases hg : w.fs.get q with
    | none => exact absurd hg ((hm q).mp hq).2
    | some e => cases e with
      | dir => exact absurd hg hn
      | file b => exact ⟨b, rfl⟩
  refine runAll_ok ho.apart _ (fun q hq => (hm q).mp hq) (order_sorted _ _ _) ⟨fun q hq => hu.names q ((hm q).mp hq),
    fun q hq b hb => hu.contents q b ((hm q).mp hq) hb, fun q hq hqd x y hy hxy => ?_, fun q hq hqn x hqx => ?_⟩ w rfl
  · obtain ⟨a, b⟩ := hu.dirs q x y ((hm q).mp hq) hqd hy hxy
    refine ⟨a, fun p hp hn => ?_⟩
    obtain ⟨c, hc⟩ := isFile hp hn
    exact b p c ((hm p).mp hp) hc
  · obtain ⟨c, hc⟩ := isFile hq hqn
    obtain ⟨a, b⟩ := hu.files q c x ((hm q).mp hq) hc hqx
    refine ⟨a, b.imp id ?_⟩
    rintro ⟨p, y, k1, k2, k3, k4, k5⟩
    exact ⟨p, (hm p).mpr k1, k2, k3, y, k4, k5⟩

/-! ## A concrete run -/

/-- "{{.b}}" replaced by "8", as text/template does with `b: 8`. -/
def eight : Bytes → Bytes
  | 123 :: 123 :: 46 :: 98 :: 125 :: 125 :: r => 56 :: eight r
  | c :: r => c :: eight r
  | [] => []

/-- Libraries for one data file. -/
def eights : Libs Nat := { decode := fun _ => some [([98], .other 8)], expand := fun _ p => some (eight p), fill := fun _ _ b => some (eight b, true) }

/-- The directory "/u" with the data "d" and the template directory "t{{.b}}", in it the directory "s" with the file "z", and the files "a" and "n{{.b}}". -/
def someFiles : FS :=
  [([[117]], .dir), ([[117], [100]], .file []), ([[117], [116, 123, 123, 46, 98, 125, 125]], .dir),
   ([[117], [116, 123, 123, 46, 98, 125, 125], [115]], .dir),
   ([[117], [116, 123, 123, 46, 98, 125, 125], [115], [122]], .file [122]),
   ([[117], [116, 123, 123, 46, 98, 125, 125], [97]], .file [120, 123, 123, 46, 98, 125, 125, 121]),
   ([[117], [116, 123, 123, 46, 98, 125, 125], [110, 123, 123, 46, 98, 125, 125]], .file [123, 123, 46, 98, 125, 125])]

/-- In "/u", with `-t t{{.b}} -d d`: "t8", "t8/a", "t8/n8", "t8/s" and "t8/s/z" are made, in this order. -/
example : (match main eights [47, 117] [116, 123, 123, 46, 98, 125, 125] [100] [98] 9 ⟨someFiles, []⟩ with
    | .done w => some (w.fs.take 5 |>.reverse, w.fs.length, w.log.length)
    | _ => none) =
    some ([([[117], [116, 56]], .dir), ([[117], [116, 56], [97]], .file [120, 56, 121]), ([[117], [116, 56], [110, 56]], .file [56]),
      ([[117], [116, 56], [115]], .dir), ([[117], [116, 56], [115], [122]], .file [122])], 12, 10) := by
  simp only [main, load]
  decide +kernel

/-- Facts about all places of a file system follow from those about its entries. -/
theorem all_files {fs : FS} {p : Place → Prop} (h0 : p []) (h : ∀ x ∈ fs, p x.1) : ∀ x, fs.get x ≠ none → p x := by
  intro x hx
  by_cases h1 : x = []
  · rw [h1]; exact h0
  · simp only [FS.get, if_neg h1] at hx
    obtain ⟨y, hy, rfl⟩ := (find_ne_none fs x).mp hx
    exact h y hy

theorem someFiles_ok : FilesOk someFiles := by
  intro x hx
  refine all_files (p := fun x => (∀ c ∈ x, c ≠ [] ∧ (47 : UInt8) ∉ c ∧ c ≠ dot1 ∧ c ≠ dot2) ∧ someFiles.get x.dropLast = some .dir) ?_ ?_ x hx
  · decide +kernel
  · decide +kernel

theorem someFiles_load : load eights [47, 117] someFiles [100] [98] = some (.other 8) := by
  have hr : resolve [47, 117] [100] = [[117], [100]] := by decide +kernel
  simp [load, hr, someFiles, FS.get, FS.find, eights, sel, splitN2, look]

/-- The hypotheses of C69 hold there. -/
theorem someFiles_outside : Outside eights [47, 117] (.other 8) (resolve [47, 117] [116, 123, 123, 46, 98, 125, 125]) someFiles := by
  rintro q x ⟨h1, h2⟩ ⟨o, h3, rfl⟩
  simp only [eights, Option.some.injEq] at h3
  subst h3
  revert h1
  refine all_files (p := fun q => resolve [47, 117] [116, 123, 123, 46, 98, 125, 125] <+: q →
    ¬ resolve [47, 117] [116, 123, 123, 46, 98, 125, 125] <+: resolve [47, 117] (eight (absText q))) ?_ ?_ q h2
  · decide +kernel
  · decide +kernel

/-- The entries of this catalog. -/
theorem someFiles_catalog {q : Place} (h : InCatalog someFiles (resolve [47, 117] [116, 123, 123, 46, 98, 125, 125]) q) :
    q = [[117], [116, 123, 123, 46, 98, 125, 125]] ∨ q = [[117], [116, 123, 123, 46, 98, 125, 125], [115]] ∨
    q = [[117], [116, 123, 123, 46, 98, 125, 125], [115], [122]] ∨ q = [[117], [116, 123, 123, 46, 98, 125, 125], [97]] ∨
    q = [[117], [116, 123, 123, 46, 98, 125, 125], [110, 123, 123, 46, 98, 125, 125]] := by
  obtain ⟨h1, h2⟩ := h
  revert h1
  refine all_files (p := fun q => resolve [47, 117] [116, 123, 123, 46, 98, 125, 125] <+: q →
    q = [[117], [116, 123, 123, 46, 98, 125, 125]] ∨ q = [[117], [116, 123, 123, 46, 98, 125, 125], [115]] ∨
    q = [[117], [116, 123, 123, 46, 98, 125, 125], [115], [122]] ∨ q = [[117], [116, 123, 123, 46, 98, 125, 125], [97]] ∨
    q = [[117], [116, 123, 123, 46, 98, 125, 125], [110, 123, 123, 46, 98, 125, 125]]) ?_ ?_ q h2
  · decide +kernel
  · decide +kernel

/-- Its files and directories with their targets. -/
theorem someFiles_targets {q : Place} (h : InCatalog someFiles (resolve [47, 117] [116, 123, 123, 46, 98, 125, 125]) q) :
    (someFiles.get q = some .dir ∧ (resolve [47, 117] (eight (absText q)) = [[117], [116, 56]] ∨ resolve [47, 117] (eight (absText q)) = [[117], [116, 56], [115]])) ∨
    (someFiles.get q ≠ some .dir ∧ (resolve [47, 117] (eight (absText q)) = [[117], [116, 56], [115], [122]] ∨
      resolve [47, 117] (eight (absText q)) = [[117], [116, 56], [97]] ∨ resolve [47, 117] (eight (absText q)) = [[117], [116, 56], [110, 56]])) := by
  rcases someFiles_catalog h with rfl | rfl | rfl | rfl | rfl <;> decide +kernel

theorem someFiles_unblocked : Unblocked eights [47, 117] (.other 8) (resolve [47, 117] [116, 123, 123, 46, 98, 125, 125]) someFiles where
  names q hq := by
    refine ⟨_, rfl, ?_⟩
    rcases someFiles_catalog hq with rfl | rfl | rfl | rfl | rfl <;> decide +kernel
  contents q b _ _ := ⟨_, rfl⟩
  dirs q x y hq hd := by
    rintro ⟨o, h, rfl⟩ hx
    cases h
    have hn : x.length < 4 ∧ x ∈ [[], [[117]], [[117], [116, 56]], [[117], [116, 56], [115]]] := by
      rcases someFiles_targets hq with ⟨_, e | e⟩ | ⟨e, _⟩
      · rw [e] at hx
        rw [List.prefix_iff_eq_take.mp hx]
        have := hx.length_le
        revert this
        generalize x.length = n
        intro hn
        have : n < 3 := by simp at hn; omega
        revert n; decide
      · rw [e] at hx
        rw [List.prefix_iff_eq_take.mp hx]
        have := hx.length_le
        revert this
        generalize x.length = n
        intro hn
        have : n < 4 := by simp at hn; omega
        revert n; decide
      · exact absurd hd e
    refine ⟨fun b => ?_, fun p c hp hc => ?_⟩
    · obtain ⟨_, hm⟩ := hn
      simp only [List.mem_cons, List.not_mem_nil, or_false] at hm
      rcases hm with rfl | rfl | rfl | rfl <;> simp [someFiles, FS.get, FS.find]
    · rintro ⟨o, h, e0⟩
      cases h
      rcases someFiles_targets hp with ⟨e, _⟩ | ⟨_, e | e | e⟩
      · rw [hc] at e; cases e
      all_goals rw [e0, e] at hn; revert hn; decide
  files q b x hq hb := by
    rintro ⟨o, h, rfl⟩
    cases h
    have cat : ∀ p ∈ someFiles, [[117], [116, 123, 123, 46, 98, 125, 125]] <+: p.1 → InCatalog someFiles (resolve [47, 117] [116, 123, 123, 46, 98, 125, 125]) p.1 := by
      have hr : resolve [47, 117] [116, 123, 123, 46, 98, 125, 125] = [[117], [116, 123, 123, 46, 98, 125, 125]] := by decide +kernel
      rw [hr]
      intro p hp hpp
      refine ⟨hpp, ?_⟩
      have : ∀ p ∈ someFiles, someFiles.get p.1 ≠ none := by decide +kernel
      exact this p hp
    rcases someFiles_catalog hq with rfl | rfl | rfl | rfl | rfl
    · cases hb
    · cases hb
    · exact ⟨by decide +kernel, .inr ⟨_, _, cat ([[117], [116, 123, 123, 46, 98, 125, 125], [115]], .dir) (by decide +kernel) (by decide +kernel), by decide +kernel,
        by simp [Earlier], ⟨_, rfl, rfl⟩, by decide +kernel⟩⟩
    · exact ⟨by decide +kernel, .inr ⟨_, _, cat ([[117], [116, 123, 123, 46, 98, 125, 125]], .dir) (by decide +kernel) (by decide +kernel), by decide +kernel,
        by simp [Earlier], ⟨_, rfl, rfl⟩, by decide +kernel⟩⟩
    · exact ⟨by decide +kernel, .inr ⟨_, _, cat ([[117], [116, 123, 123, 46, 98, 125, 125]], .dir) (by decide +kernel) (by decide +kernel), by decide +kernel,
        by simp [Earlier], ⟨_, rfl, rfl⟩, by decide +kernel⟩⟩

/-- So C69 applies. -/
example : ∃ f0, ∀ f, f0 ≤ f → ∃ w', main eights [47, 117] [116, 123, 123, 46, 98, 125, 125] [100] [98] f ⟨someFiles, []⟩ = .done w' :=
  C69_succeeds eights (by decide) someFiles_ok (by decide) someFiles_load (by decide +kernel) (by decide +kernel) someFiles_outside someFiles_unblocked

/-! ## Runs that write nothing -/

/-- C70: without a template, without usable data (the option `-d` missing, no such file, undecodable, nothing selected), with the
root as template, with a template that is not there or whose name cannot be worked out or stays the same, the tool gives up before it
has written anything. -/
theorem C70_nothing_written (L : Libs X) {wd t data path : Bytes} (hwd : Rooted wd) (w : World)
    (h : t = [] ∨ load L wd w.fs data path = none ∨ resolve wd t = [] ∨ w.fs.get (resolve wd t) = none ∨
      ∃ d, load L wd w.fs data path = some d ∧ (L.expand d (absText (resolve wd t)) = none ∨ L.expand d (absText (resolve wd t)) = some (absText (resolve wd t)))) :
    ∀ f, 0 < f → ∃ w', main L wd t data path f w = .fatal w' ∧ w'.fs = w.fs := by
  intro f hf
  obtain ⟨f, rfl⟩ : ∃ g, f = g + 1 := ⟨f - 1, by omega⟩
  rw [main]
  by_cases ht : t = []
  · rw [if_pos (by simp [ht])]; exact ⟨w, rfl, rfl⟩
  rw [if_neg (by simpa using ht)]
  cases hd : load L wd w.fs data path with
  | none => exact ⟨w, rfl, rfl⟩
  | some d =>
    dsimp only
    by_cases hP : resolve wd t = []
    · have : makePrefix wd t = none := by
        rw [makePrefix, abs_resolve hwd, hP]; decide +kernel
      rw [this]; exact ⟨w, rfl, rfl⟩
    · have hN := resolve_named hwd t
      rw [makePrefix_place hwd hP]
      simp only [execute, getRelName_eq, abs_resolve hwd t, resolve_absText wd hN, World.say]
      cases hg : w.fs.get (resolve wd t) with
      | none => exact ⟨_, rfl, rfl⟩
      | some e =>
        simp only [ht, hd, hP, hg, false_or, reduceCtorEq, Option.some.injEq, exists_eq_left'] at h
        rcases h with h | h
        · rw [h]; exact ⟨_, rfl, rfl⟩
        · simp only [h, if_true]; exact ⟨_, rfl, rfl⟩

/-- In "/u" the name "s" has nothing to replace: refused, and nothing is written. -/
example : ∃ w', main eights [47, 117] [115] [100] [98] 5 ⟨([[117], [115]], .dir) :: someFiles, []⟩ = .fatal w' ∧ w'.fs = ([[117], [115]], .dir) :: someFiles := by
  refine C70_nothing_written eights (by decide) _ (.inr (.inr (.inr (.inr ⟨.other 8, ?_, .inr (by decide +kernel)⟩)))) 5 (by decide)
  have hr : resolve [47, 117] [100] = [[117], [100]] := by decide +kernel
  simp [load, hr, someFiles, FS.get, FS.find, eights, sel, splitN2, look]

/-- C70: the option `-d` is not marked as required, but nothing works without it. -/
theorem C70_data_required (L : Libs X) {wd t path : Bytes} (w : World) (f : Nat) : main L wd t [] path f w = .fatal w := by
  simp only [main, load, if_true]
  split <;> rfl

/-! ## Results inside the catalog -/

/-- Libraries that add "/a" to every name: what text/template does to the names below if `.x` is "{{.x}}/a". -/
def inward : Libs Unit := { decode := fun _ => some [], expand := fun _ p => some (p ++ [47, 97]), fill := fun _ _ b => some (b, true) }

/-- "/t/{{.x}}" followed by "/a" `k` times. -/
def deep (k : Nat) : Place := [[116], [123, 123, 46, 120, 125, 125]] ++ List.replicate k [97]

theorem deep_succ (k : Nat) : deep (k + 1) = deep k ++ [[97]] := by simp [deep, List.replicate_succ']

theorem deep_named (k : Nat) : Named (deep k) := by
  intro c hc
  simp only [deep, List.mem_append, List.mem_cons, List.not_mem_nil, or_false, List.mem_replicate] at hc
  rcases hc with (rfl | rfl) | ⟨_, rfl⟩ <;> exact ⟨by decide, by decide, by decide, by decide⟩

theorem deep_text (k : Nat) : absText (deep k) ++ [47, 97] = absText (deep (k + 1)) := by
  rw [deep_succ, absText, absText, joined_snoc, if_neg (by simp [deep])]
  simp

theorem inward_step (f : Nat) : ∀ (k : Nat) (w : World), (∀ x, x <+: deep k → w.fs.get x = some .dir) →
    (∀ n, w.fs.get (deep k ++ [n]) = none) → (∀ n y, w.fs.get (deep k ++ n :: y) = none) → ∀ pre d, execute inward [47] d pre f (absText (deep k)) w = .more := by
  induction f with
  | zero => intros; rfl
  | succ f ih =>
    intro k w h1 h2 h3 pre d
    have hN := deep_named k
    have hN1 := deep_named (k + 1)
    simp only [execute, abs_absText [47] hN, getRelName_eq, resolve_absText [47] hN, World.say, h1 _ (List.prefix_refl _), inward, deep_text]
    rw [if_neg (by rw [← deep_text]; intro h; have := congrArg List.length h; simp at this)]
    obtain ⟨a, b, c⟩ := mkdirs_spec (deep (k + 1)) w.fs []
    simp only [resolve_absText [47] hN1, executeDir]
    have pre1 : ∀ x, x <+: deep (k + 1) → x <+: deep k ∨ x = deep (k + 1) := by
      intro x hx
      rw [deep_succ] at hx ⊢
      rcases List.prefix_concat_iff.mp hx with h | h
      · exact .inr h
      · exact .inl h
    cases hr : (w.fs.mkdirs [] (deep (k + 1))).2 with
    | false =>
      obtain ⟨x, y, _, k1, k2⟩ := c hr
      exfalso
      rcases pre1 x (by simpa using k1) with hx | rfl
      · rw [h1 x hx] at k2; cases k2
      · rw [deep_succ, h2] at k2; cases k2
    | true =>
      have hb : ∀ x, x <+: deep (k + 1) → (w.fs.mkdirs [] (deep (k + 1))).1.get x = some .dir := by
        intro x hx
        by_cases h0 : x = []
        · subst h0; rfl
        · exact b hr x List.nil_prefix (by simpa using hx) h0
      have hnew : ∀ n y, deep k ++ n :: y ≠ deep (k + 1) → (w.fs.mkdirs [] (deep (k + 1))).1.get (deep k ++ n :: y) = none := by
        intro n y hne
        rcases a (deep k ++ n :: y) with e | ⟨_, _, e, _⟩
        · rw [e, h3]
        · exfalso
          rcases pre1 _ (by simpa using e) with e | e
          · have := e.length_le; simp at this; omega
          · exact hne e
      have hdir : (w.fs.mkdirs [] (deep (k + 1))).1.get (deep k) = some .dir := hb _ (by rw [deep_succ]; exact List.prefix_append _ _)
      obtain ⟨l, l1, l2, l3⟩ := readDir_spec hdir
      have hl : l = [[97]] := by
        refine sorted_unique l2 (by simp) fun n => ?_
        rw [l3, List.mem_singleton]
        constructor
        · intro hn
          by_cases e : n = [97]
          · exact e
          · exact absurd (hnew n [] (by rw [deep_succ]; simpa using e)) hn
        · rintro rfl
          rw [← deep_succ, hb _ (List.prefix_refl _)]; simp
      simp only [l1, hl, each, join_item (deep_succ k ▸ hN1), ← deep_succ]
      have := ih (k + 1) { fs := (w.fs.mkdirs [] (deep (k + 1))).1, log := w.log ++ [.executing (relOf pre (absText (deep k)))] ++
        [.directory (relOf pre (absText (deep k))) (relOf pre (absText (deep (k + 1))))] } (fun x hx => hb x hx) (fun n => by
          show (w.fs.mkdirs [] (deep (k + 1))).1.get _ = none
          rw [show deep (k + 1) ++ [n] = deep k ++ [97] :: [n] by rw [deep_succ]; simp]
          exact hnew [97] [n] (by rw [deep_succ]; simp)) (fun n y => by
          show (w.fs.mkdirs [] (deep (k + 1))).1.get _ = none
          rw [show deep (k + 1) ++ n :: y = deep k ++ [97] :: (n :: y) by rw [deep_succ]; simp]
          exact hnew [97] (n :: y) (by rw [deep_succ]; simp)) pre d
      simp only [inward] at this
      rw [this]

theorem inward_load (fs : FS) (b : Bytes) (h : fs.get [[100]] = some (.file b)) : load inward [47] fs [100] [] = some (.map []) := by
  have hr : resolve [47] [100] = [[100]] := by decide +kernel
  simp [load, hr, h, inward, sel]

/-- C69 needs its hypothesis: if the results go into the catalog itself, the tool works on its own output and never ends.  The template is
the empty directory "/t/{{.x}}", and `.x` is "{{.x}}/a". -/
theorem C69_inside_never_ends : ∃ w : World, FilesOk w.fs ∧ (∃ d, load inward [47] w.fs [100] [] = some d) ∧
    w.fs.get (resolve [47] (absText (deep 0))) = some .dir ∧ ∀ f, main inward [47] (absText (deep 0)) [100] [] f w = .more := by
  refine ⟨⟨[([[116]], .dir), (deep 0, .dir), ([[100]], .file [])], []⟩, ?_, ⟨.map [], inward_load _ [] (by decide +kernel)⟩, by rw [resolve_absText _ (deep_named 0)]; rfl, fun f => ?_⟩
  · intro x hx
    by_cases h0 : x = []
    · subst h0; simp [FS.get]
    · simp only [FS.get, if_neg h0, FS.find] at hx
      split at hx
      · rename_i e; subst e; decide
      · split at hx
        · rename_i e; subst e; decide
        · split at hx
          · rename_i e; subst e; decide
          · exact absurd rfl hx
  · rw [main, if_neg (by simp [absText])]
    have : load inward [47] (World.fs ⟨[([[116]], .dir), (deep 0, .dir), ([[100]], .file [])], []⟩) [100] [] = some (.map []) :=
      inward_load _ [] (by decide +kernel)
    rw [this, makePrefix_place (by rfl) (by rw [resolve_absText _ (deep_named 0)]; simp [deep])]
    refine inward_step f 0 _ (fun x hx => ?_) (fun n => ?_) (fun n y => ?_) _ _
    · have : x = [] ∨ x = [[116]] ∨ x = deep 0 := by
        simp only [deep, List.replicate_zero, List.append_nil] at hx ⊢
        rcases x with _ | ⟨a, x⟩
        · exact .inl rfl
        · obtain ⟨rfl, hx1⟩ := List.cons_prefix_cons.mp hx
          rcases x with _ | ⟨b, x⟩
          · exact .inr (.inl rfl)
          · obtain ⟨rfl, hx2⟩ := List.cons_prefix_cons.mp hx1
            rw [List.prefix_nil.mp hx2]; exact .inr (.inr rfl)
      rcases this with rfl | rfl | rfl <;> rfl
    · simp [deep, FS.get, FS.find]
    · simp [deep, FS.get, FS.find]

end Verif.Props
