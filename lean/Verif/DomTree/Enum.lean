import Verif.DomTree.History

namespace Verif.DomTree
open Verif.Domain Verif.DomainText
variable {V : Type}

/-- All the lists one after the other, or `none` if one of them is missing. -/
def concatAll {α : Type} : List (Option (List α)) → Option (List α)
  | [] => some []
  | x :: xs => x.bind fun a => (concatAll xs).map fun b => a ++ b

theorem concatAll_append {α : Type} (a b : List (Option (List α))) :
    concatAll (a ++ b) = (concatAll a).bind fun x => (concatAll b).map fun y => x ++ y := by
  induction a with
  | nil => simp [concatAll]
  | cons x xs ih =>
    simp only [List.cons_append, concatAll, ih]
    cases x <;> simp
    cases concatAll xs <;> simp
    cases concatAll b <;> simp

/-- The unfolded walk in the model is the loop over `DL.Enumerate`. domaintree/domaintree.go:206-214. -/
theorem enumB_eq (s : Bytes) (r : BTree (RB.RD Bytes (Node V))) :
    enumB s r = (DL.enumerateN r).bind fun ps => concatAll (ps.map fun p => enumN (subKey p.1 s) p.2) := by
  induction r with
  | nil => simp [enumB, DL.enumerateN, concatAll]
  | node d l r ihl ihr =>
    obtain ⟨key, node, red⟩ := d
    simp only [enumB, enumD, DL.enumerateN, ihl, ihr]
    cases DL.enumerateN l <;> cases MakeHumanReadableLabel key <;> cases DL.enumerateN r <;>
      simp [concatAll_append, concatAll]
    rename_i a k b
    cases concatAll (List.map (fun p => enumN (subKey p.1 s) p.2) a) <;> simp
    cases enumN (subKey k s) node <;> simp
    cases concatAll (List.map (fun p => enumN (subKey p.1 s) p.2) b) <;> simp

theorem enumN_eq (s : Bytes) (n : Node V) :
    enumN s n = (DL.Enumerate n.branches).bind fun ps =>
      (concatAll (ps.map fun p => enumN (subKey p.1 s) p.2)).map fun rest => (n.val.toList.map fun v => (s, v)) ++ rest := by
  obtain ⟨br, val⟩ := n
  unfold DL.Enumerate
  rcases br with _ | ⟨⟨r⟩⟩
  · cases val <;> simp [enumN, enumO, DL.rootOf, DL.enumerateN, concatAll]
  · simp only [enumN, enumO, enumT, branches_mk, DL.rootOf, enumB_eq]
    cases DL.enumerateN r with
    | none => rfl
    | some ps =>
      simp only [Option.bind_some]
      congr 1
      cases val <;> simp

/-- The printed form of a domain. -/
def keyOf (q : List Bytes) : Bytes := nameText (q.reverse.map (·.map tokOf)) false

theorem labelText_ne_nil {l : Bytes} (h : 1 ≤ l.length) : 0 < (labelText (l.map tokOf)).length := by
  cases l with
  | nil => simp at h
  | cons c l =>
    have : ∀ c, 0 < (tokOf c).text.length := forall_u8 (by decide +kernel)
    have := this c
    simp [labelText]; omega

theorem subKey_keyOf (q : List Bytes) (l : Bytes) (hq : Short q) :
    subKey (labelText (l.map tokOf)) (keyOf q) = keyOf (q ++ [l]) := by
  unfold subKey keyOf
  rcases hr : q.reverse with _ | ⟨a, q'⟩
  · have : q = [] := by simpa using hr
    subst this; simp [nameText]
  · have ha : a ∈ q := by rw [← List.mem_reverse, hr]; simp
    have h1 := labelText_ne_nil (hq a ha).1
    have h2 : 0 < (nameText ((a :: q').map (·.map tokOf)) false).length := by
      cases q' with
      | nil => simp [nameText]; omega
      | cons b q' => simp [nameText]; omega
    rw [List.reverse_append, hr]
    rw [if_pos h2]
    simp only [List.reverse_cons, List.reverse_nil, List.nil_append, List.map_cons, List.cons_append, nameText]

/-- Order of domains: a domain before its subdomains, otherwise by the first differing label. -/
def DomLt : List Bytes → List Bytes → Prop
  | [], [] => False
  | [], _ :: _ => True
  | _ :: _, [] => False
  | a :: as, b :: bs => (a.length < b.length ∨ (a.length = b.length ∧ a < b)) ∨ (a = b ∧ DomLt as bs)

/-- What `enumerate` yields. -/
theorem enum_spec {n : Node V} (h : WF n) (pre : List Bytes) (hpre : Short pre) :
    ∃ es : List (List Bytes × V), enumN (keyOf pre) n = some (es.map fun e => (keyOf (pre ++ e.1), e.2)) ∧
      (∀ q v, (q, v) ∈ es ↔ valueAt n q = some v) ∧ es.Pairwise fun a b => DomLt a.1 b.1 := by
  induction h generalizing pre with
  | @mk br val hok hsub hlive hlen ih =>
    rw [enumN_eq]
    have hshort : ∀ p ∈ RB.enumerate (DL.rootOf br), p.1.length ≤ 63 := by
      intro p hp
      exact (hlen p.1 p.2 ((DL.mem_iff hok).1 hp)).2
    have henum : DL.Enumerate br = _ := DL.enumerateN_short (DL.rootOf br) hshort
    simp only [branches_mk, henum, Option.bind_some, List.map_map, val_mk]
    -- the loop over the branches
    have hloop : ∀ ps : List (Bytes × Node V), (∀ p ∈ ps, DL.RawGet br p.1 = some p.2) →
        RB.Sorted DL.cmpLabel ps →
        ∃ es : List (List Bytes × V),
          concatAll (ps.map ((fun p => enumN (subKey p.1 (keyOf pre)) p.2) ∘ fun p => (labelText (p.1.map tokOf), p.2))) =
            some (es.map fun e => (keyOf (pre ++ e.1), e.2)) ∧
          (∀ q v, (q, v) ∈ es ↔ ∃ p ∈ ps, ∃ q', q = p.1 :: q' ∧ valueAt p.2 q' = some v) ∧
          es.Pairwise fun a b => DomLt a.1 b.1 := by
      intro ps hps hsorted
      induction ps with
      | nil => exact ⟨[], rfl, by simp, .nil⟩
      | cons p ps ihps =>
        obtain ⟨es, e1, e2, e3⟩ := ihps (fun x hx => hps x (by simp [hx])) (List.pairwise_cons.1 hsorted).2
        have hg := hps p (by simp)
        have hl := hlen p.1 p.2 hg
        have hs' : Short (pre ++ [p.1]) := by
          intro l hl'
          simp only [List.mem_append, List.mem_singleton] at hl'
          rcases hl' with hl' | rfl
          · exact hpre l hl'
          · exact hl
        obtain ⟨fs, f1, f2, f3⟩ := ih p.1 p.2 hg (pre ++ [p.1]) hs'
        refine ⟨fs.map (fun e => (p.1 :: e.1, e.2)) ++ es, ?_, ?_, ?_⟩
        · simp only [List.map_cons, concatAll, Function.comp_apply]
          rw [subKey_keyOf pre p.1 hpre, f1]
          simp only [Function.comp_def] at e1
          simp only [Function.comp_def, e1]
          simp
        · intro q v
          simp only [List.mem_append, List.mem_map, List.mem_cons, e2]
          constructor
          · rintro (⟨⟨q', v'⟩, h1, h2⟩ | ⟨x, hx, q', h1, h2⟩)
            · cases h2
              exact ⟨p, .inl rfl, q', rfl, (f2 _ _).1 h1⟩
            · exact ⟨x, .inr hx, q', h1, h2⟩
          · rintro ⟨x, rfl | hx, q', h1, h2⟩
            · exact .inl ⟨(q', v), (f2 q' v).2 h2, by rw [h1]⟩
            · exact .inr ⟨x, hx, q', h1, h2⟩
        · rw [List.pairwise_append]
          refine ⟨?_, e3, ?_⟩
          · rw [List.pairwise_map]
            exact f3.imp fun h => .inr ⟨rfl, h⟩
          · rintro a ha ⟨q, v⟩ hb
            simp only [List.mem_map] at ha
            obtain ⟨e, he, rfl⟩ := ha
            obtain ⟨x, hx, q', rfl, _⟩ := (e2 q v).1 hb
            left
            exact DL.cmpLabel_lt.1 ((List.pairwise_cons.1 hsorted).1 x hx)
    obtain ⟨es, e1, e2, e3⟩ := hloop (RB.enumerate (DL.rootOf br)) (fun p hp => (DL.mem_iff hok).1 hp) hok.2
    refine ⟨val.toList.map (fun v => ([], v)) ++ es, ?_, ?_, ?_⟩
    · rw [e1]; cases val <;> simp
    · intro q v
      simp only [List.mem_append, List.mem_map, Option.mem_toList, e2]
      cases q with
      | nil =>
        constructor
        · rintro (⟨a, h1, h2⟩ | ⟨p, hp, q', h1, _⟩)
          · cases h2; exact h1
          · cases h1
        · intro hv; exact .inl ⟨v, hv, rfl⟩
      | cons a q =>
        rw [valueAt_mk]
        constructor
        · rintro (⟨a, h1, h2⟩ | ⟨p, hp, q', h1, h2⟩)
          · cases h2
          · cases h1
            rw [(DL.mem_iff hok).1 hp]; exact h2
        · intro hv
          right
          cases hg : DL.RawGet br a with
          | none => simp [hg] at hv
          | some m =>
            rw [hg] at hv
            exact ⟨(a, m), (DL.mem_iff hok).2 hg, q, rfl, hv⟩
    · rw [List.pairwise_append]
      refine ⟨by cases val <;> simp, e3, ?_⟩
      rintro a ha ⟨q, v⟩ hb
      simp only [List.mem_map] at ha
      obtain ⟨e, he, rfl⟩ := ha
      obtain ⟨x, hx, q', rfl, _⟩ := (e2 q v).1 hb
      trivial

theorem DomLt.irrefl (a : List Bytes) : ¬ DomLt a a := by
  induction a with
  | nil => exact id
  | cons x a ih =>
    rintro ((h | ⟨_, h⟩) | ⟨_, h⟩)
    · omega
    · exact absurd h (List.lt_irrefl x)
    · exact ih h

theorem DomLt.asymm {a b : List Bytes} (h : DomLt a b) : ¬ DomLt b a := by
  induction a generalizing b with
  | nil => cases b <;> simp_all [DomLt]
  | cons x a ih =>
    cases b with
    | nil => exact absurd h id
    | cons y b =>
      intro h'
      simp only [DomLt] at h h'
      have hs : ∀ u w : Bytes, (u.length < w.length ∨ (u.length = w.length ∧ u < w)) ↔ DL.cmpLabel u w < 0 := fun u w => DL.cmpLabel_lt.symm
      rw [hs] at h h'
      have hsw := DL.cmpLabel_lawful.swap x y
      rcases h with h | ⟨rfl, h⟩
      · rcases h' with h' | ⟨rfl, h'⟩
        · omega
        · have := DL.cmpLabel_lawful.refl y; omega
      · rcases h' with h' | ⟨_, h'⟩
        · have := DL.cmpLabel_lawful.refl x; omega
        · exact ih h h'

/-- A strictly sorted list is determined by its elements. -/
theorem domLt_unique {as bs : List (List Bytes × V)} (ha : as.Pairwise fun a b => DomLt a.1 b.1)
    (hb : bs.Pairwise fun a b => DomLt a.1 b.1) (h : ∀ q v, (q, v) ∈ as ↔ (q, v) ∈ bs) : as = bs := by
  induction as generalizing bs with
  | nil =>
    cases bs with
    | nil => rfl
    | cons b bs => have := (h b.1 b.2).2 (by simp); simp at this
  | cons a as ih =>
    cases bs with
    | nil => have := (h a.1 a.2).1 (by simp); simp at this
    | cons b bs =>
      rw [List.pairwise_cons] at ha hb
      have hab : a = b := by
        rcases List.mem_cons.1 ((h a.1 a.2).1 (by simp)) with h1 | h1
        · exact h1
        · rcases List.mem_cons.1 ((h b.1 b.2).2 (by simp)) with h2 | h2
          · exact h2.symm
          · exact absurd (ha.1 _ h2) (DomLt.asymm (hb.1 _ h1))
      subst hab
      congr 1
      refine ih ha.2 hb.2 fun q v => ?_
      have := h q v
      simp only [List.mem_cons] at this
      constructor
      · intro hx
        rcases this.1 (.inr hx) with rfl | h'
        · exact absurd (ha.1 _ hx) (DomLt.irrefl _)
        · exact h'
      · intro hx
        rcases this.2 (.inr hx) with rfl | h'
        · exact absurd (hb.1 _ hx) (DomLt.irrefl _)
        · exact h'

end Verif.DomTree
