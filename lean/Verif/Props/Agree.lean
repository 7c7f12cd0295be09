import Verif.Props.UIptree
import Verif.IP.UHistory

/-!
# Property C86: when the generated IP trees answer as iptree does

The packages uintX/iptree8, 16, 32 and 64 are meant as iptree with the value type fixed.  The same calls are run on both.
-/

namespace Verif.Props
open Verif
open Verif.IP (Op OpNet NetLists)
variable {V : Type} [Inhabited V]

omit [Inhabited V] in
/-- Every lookup and the listing of an iptree and of a generated tree give the same. -/
structure SameAnswers (a : Option (IP.Tree V)) (b : Option (UIP.Tree V)) : Prop where
  net : ∀ n, IP.GetByNet a n = (UIP.GetByNet b n).map .user
  ip : ∀ ip, IP.GetByIP a ip = (UIP.GetByIP b ip).map .user
  list : IP.Enumerate a = UIP.Enumerate b

omit [Inhabited V] in
/-- After the calls `ops` the IPv6 network `p` is shorter than 64 bits, is not stored, and contains something stored. -/
def HollowNet (ops : List (Fam × POp V)) (p : List Bool) : Prop :=
  p.length < 64 ∧ lastNet ops .v6 p = none ∧ ∃ q v, p <+: q ∧ lastNet ops .v6 q = some v

omit [Inhabited V] in
/-- None of the calls (newest first) deleted an IPv6 network that was hollow at the time. -/
def NoHollowDelete (ops : List (Op V × Option (Fam × POp V))) : Prop :=
  ∀ op p rest, ((op, some (.v6, .delete p)) :: rest) <:+ ops → ¬ HollowNet (rest.filterMap Prod.snd) p

namespace Agree

omit [Inhabited V] in
theorem matches_unique {m : PMap V} {q : List Bool} {r r' : Option V} (h : m.IsLongestMatch q r) (h' : m.IsLongestMatch q r') : r = r' := by
  rcases h with ⟨x, v, rfl, h2, h3, h4⟩ | ⟨rfl, h2⟩ <;> rcases h' with ⟨x', v', rfl, g2, g3, g4⟩ | ⟨rfl, g2⟩
  · have hl := h4 x' v' g2 g3
    have hl' := g4 x v h2 h3
    have : x = x' := by
      rcases List.prefix_or_prefix_of_prefix h2 g2 with e | e
      · exact e.eq_of_length (by omega)
      · exact (e.eq_of_length (by omega)).symm
    subst this
    rw [h3] at g3
    exact g3
  · rw [g2 x h2] at h3; cases h3
  · rw [h2 x' g2] at g3; cases g3
  · rfl

omit [Inhabited V] in
theorem ulists {t : UIP.Tree V} (h : UIP.WFT t) : NetLists (UIP.denT t) (UIP.Enumerate (some t)) :=
  ⟨UIP.enumerate_sorted h, UIP.enumerate_sound h, fun _ _ _ => UIP.enumerate_complete h⟩

omit [Inhabited V] in
theorem ulists' {t : Option (UIP.Tree V)} (h : UIP.WFT (UIP.base t)) : NetLists (UIP.denT (UIP.base t)) (UIP.Enumerate t) := by
  cases t with
  | some t => exact ulists h
  | none => exact ⟨List.Pairwise.nil, fun x hx => by simp [UIP.Enumerate] at hx, fun f p v e => by rw [UIP.base_none, UIP.denT_new] at e; cases e⟩

omit [Inhabited V] in
theorem ilists' {t : Option (IP.Tree V)} (h : IP.WFT (IP.base t)) : NetLists (IP.denT (IP.base t)) (IP.Enumerate t) := by
  cases t with
  | some t => exact IP.lists_enumerate h
  | none => exact ⟨List.Pairwise.nil, fun x hx => by simp [IP.Enumerate] at hx, fun f p v e => by
      have : IP.denT (IP.base (none : Option (IP.Tree V))) f p = none := IP.denT_new f p
      rw [this] at e; cases e⟩

omit [Inhabited V] in
theorem same_of_den {a : Option (IP.Tree V)} {b : Option (UIP.Tree V)} (ha : IP.WFT (IP.base a)) (hb : UIP.WFT (UIP.base b))
    (e : IP.denT (IP.base a) = UIP.denT (UIP.base b)) : SameAnswers a b := by
  have net : ∀ n, IP.GetByNet a n = (UIP.GetByNet b n).map .user := by
    intro n
    cases n with
    | none => cases a <;> cases b <;> rfl
    | some n =>
      by_cases hn : ∃ f p, IsNet n f p
      · obtain ⟨f, p, hn⟩ := hn
        have ga : ∃ r, IP.GetByNet a (some n) = r.map .user ∧ (IP.denT (IP.base a) f).IsLongestMatch p r := by
          cases a with
          | some a => exact IP.getByNet_ok ha hn
          | none => exact ⟨none, rfl, .inr ⟨rfl, fun q _ => IP.denT_new f q⟩⟩
        have gb : (UIP.denT (UIP.base b) f).IsLongestMatch p (UIP.GetByNet b (some n)) := by
          cases b with
          | some b => exact UIP.getByNet_ok hb hn
          | none => exact .inr ⟨rfl, fun q _ => UIP.denT_new f q⟩
        obtain ⟨r, e1, e2⟩ := ga
        rw [e] at e2
        rw [e1, matches_unique e2 gb]
      · have hn : ∀ f p, ¬ IsNet n f p := fun f p h => hn ⟨f, p, h⟩
        rw [IP.getByNet_bad hn, UIP.getByNet_bad hn]; rfl
  exact ⟨net, fun ip => net _, (ilists' ha).unique (e ▸ ulists' hb)⟩

omit [Inhabited V] in
/-- Without a deletion of a hollow network the two readings of a history are the same. -/
theorem uRun_eq (ops : List (Op V × Option (Fam × POp V))) (h : NoHollowDelete ops) :
    ∀ f q, UIP.uRun (ops.filterMap Prod.snd) f q = lastNet (ops.filterMap Prod.snd) f q := by
  induction ops with
  | nil => intro f q; rfl
  | cons o ops ih =>
    have ih := ih fun op p rest hs => h op p rest (hs.trans (List.suffix_cons _ _))
    obtain ⟨op, o⟩ := o
    intro f q
    cases o with
    | none => exact ih f q
    | some o =>
      obtain ⟨g, o⟩ := o
      show UIP.uRun ((g, o) :: ops.filterMap Prod.snd) f q = lastNet ((g, o) :: ops.filterMap Prod.snd) f q
      rw [IP.lastNet_cons]
      cases o with
      | insert p v =>
        simp only [UIP.uRun, UIP.uStep, ih]
        by_cases hg : f = g <;> by_cases hq : q = p <;> simp [hg, hq]
      | delete p =>
        simp only [UIP.uRun, UIP.uStep, ih]
        by_cases hg : f = g
        · subst hg
          by_cases hq : p <+: q
          · by_cases hc : f = .v4 ∨ ¬ p.length < 64 ∨ (lastNet (ops.filterMap Prod.snd) f p).isSome = true
            · simp only [hq, hc, and_true, if_true]
            · simp only [hq, hc, and_false, if_false, if_true]
              have hf : f = .v6 := by cases f with | v4 => exact absurd (.inl rfl) hc | v6 => rfl
              subst hf
              have hh := h op p ops List.suffix_rfl
              cases hv : lastNet (ops.filterMap Prod.snd) .v6 q with
              | none => simp
              | some v =>
                refine absurd ⟨?_, ?_, q, v, hq, hv⟩ hh
                · exact Classical.byContradiction fun x => hc (.inr (.inl x))
                · cases hw : lastNet (ops.filterMap Prod.snd) .v6 p with
                  | none => rfl
                  | some w => exact absurd (.inr (.inr (by rw [hw]; rfl))) hc
          · simp [hq]
        · simp [hg]

theorem run_same {a0 : Option (IP.Tree V)} {b0 : Option (UIP.Tree V)} (ha : IP.EmptyT a0) (hb : UIP.EmptyT b0)
    (ops : List (Op V × Option (Fam × POp V))) (h : ∀ p ∈ ops, OpNet p.1 p.2) :
    ∃ a, IP.run a0 (ops.map Prod.fst) = some a ∧
      (SameAnswers a (UIP.run b0 (ops.map Prod.fst)) ↔ UIP.uRun (ops.filterMap Prod.snd) = lastNet (ops.filterMap Prod.snd)) := by
  obtain ⟨a, a1, a2, a3⟩ := IP.run_spec ha ops h
  obtain ⟨b1, b2⟩ := UIP.run_spec hb ops h
  have a3 : IP.denT (IP.base a) = lastNet (ops.filterMap Prod.snd) := funext fun f => funext fun q => a3 f q
  refine ⟨a, a1, fun hs => ?_, fun e => same_of_den a2 b1 (by rw [a3, b2, e])⟩
  have := (ilists' a2).map_unique (M' := UIP.denT (UIP.base (UIP.run b0 (ops.map Prod.fst)))) (hs.list ▸ ulists' b1)
  rw [← b2, ← this, a3]

end Agree

/-- C86: the same calls on iptree and on a generated tree lead to the same answers, to every lookup and listing, after each call of the
history, exactly if no call of the history deleted a hollow IPv6 network: one of less than 64 bits, not stored, with something stored below. -/
theorem C86_agree {a0 : Option (IP.Tree V)} {b0 : Option (UIP.Tree V)} (ha : IP.EmptyT a0) (hb : UIP.EmptyT b0)
    (ops : List (Op V × Option (Fam × POp V))) (h : ∀ p ∈ ops, OpNet p.1 p.2) :
    (∀ s, s <:+ ops → ∃ a, IP.run a0 (s.map Prod.fst) = some a ∧ SameAnswers a (UIP.run b0 (s.map Prod.fst))) ↔ NoHollowDelete ops := by
  have same : ∀ s, s <:+ ops → (∃ a, IP.run a0 (s.map Prod.fst) = some a ∧ SameAnswers a (UIP.run b0 (s.map Prod.fst))) →
      UIP.uRun (s.filterMap Prod.snd) = lastNet (s.filterMap Prod.snd) := by
    rintro s hs ⟨a, e, e2⟩
    obtain ⟨a', e', e3⟩ := Agree.run_same ha hb s fun p hp => h p (hs.subset hp)
    rw [e] at e'
    obtain rfl := Option.some.inj e'
    exact e3.1 e2
  constructor
  · rintro hall op p rest hs ⟨hp, hn, q, v, hq, hv⟩
    have h1 := same _ hs (hall _ hs)
    have hs' := (List.suffix_cons _ rest).trans hs
    have h2 := same _ hs' (hall _ hs')
    have h1 : UIP.uRun ((.v6, .delete p) :: rest.filterMap Prod.snd) .v6 q = lastNet ((.v6, .delete p) :: rest.filterMap Prod.snd) .v6 q := by
      show UIP.uRun (((op, some (.v6, .delete p)) :: rest).filterMap Prod.snd) .v6 q = _
      rw [h1]; rfl
    rw [IP.lastNet_cons] at h1
    simp only [UIP.uRun, UIP.uStep, h2, hn, hv, hq] at h1
    simp [hp] at h1
  · intro hno s hs
    obtain ⟨a, e, e3⟩ := Agree.run_same ha hb s fun p hp => h p (hs.subset hp)
    refine ⟨a, e, e3.2 (funext fun f => funext fun q => Agree.uRun_eq s ?_ f q)⟩
    exact fun op p rest hr => hno op p rest (hr.trans hs)

/-- C86: after such a history a deletion reports the same in both, unless it deletes a hollow network: then iptree reports a deletion and
the generated tree none. -/
theorem C86_flags {a0 : Option (IP.Tree V)} {b0 : Option (UIP.Tree V)} (ha : IP.EmptyT a0) (hb : UIP.EmptyT b0)
    (ops : List (Op V × Option (Fam × POp V))) (h : ∀ p ∈ ops, OpNet p.1 p.2) (hno : NoHollowDelete ops) (n : Option IPNet) :
    ∃ a a' d, IP.run a0 (ops.map Prod.fst) = some a ∧ IP.DeleteByNet a n = some (a', d) ∧
      ((UIP.DeleteByNet (UIP.run b0 (ops.map Prod.fst)) n).2 = d ↔
        ¬ ∃ m p, n = some m ∧ IsNet m .v6 p ∧ HollowNet (ops.filterMap Prod.snd) p) ∧
      ((UIP.DeleteByNet (UIP.run b0 (ops.map Prod.fst)) n).2 = true → d = true) := by
  obtain ⟨a, a1, a2, a3⟩ := IP.run_spec ha ops h
  obtain ⟨b1, b2⟩ := UIP.run_spec hb ops h
  have hu : ∀ f q, UIP.denT (UIP.base (UIP.run b0 (ops.map Prod.fst))) f q = lastNet (ops.filterMap Prod.snd) f q := by
    intro f q; rw [b2]; exact Agree.uRun_eq ops hno f q
  generalize UIP.run b0 (ops.map Prod.fst) = b at b1 b2 hu ⊢
  generalize ops.filterMap Prod.snd = m at a3 hu ⊢
  cases n with
  | none => exact ⟨a, a, false, a1, by cases a <;> rfl, by cases b <;> simp [UIP.DeleteByNet], by cases b <;> simp [UIP.DeleteByNet]⟩
  | some n =>
    by_cases hn : ∃ f p, IsNet n f p
    · obtain ⟨f, p, hn⟩ := hn
      have da : ∃ a' d, IP.DeleteByNet a (some n) = some (a', d) ∧ (d = true ↔ ∃ q v, p <+: q ∧ lastNet m f q = some v) := by
        cases a with
        | some a =>
          obtain ⟨t', d, d1, _, _, d4, _⟩ := IP.deleteByNet_ok (t := a) a2 hn
          exact ⟨_, d, d1, by rw [d4]; simp only [← a3]; rfl⟩
        | none =>
          refine ⟨none, false, rfl, by simp, ?_⟩
          rintro ⟨q, v, _, e⟩
          rw [← a3] at e
          have : IP.denT (IP.base (none : Option (IP.Tree V))) f q = none := IP.denT_new f q
          rw [this] at e; cases e
      obtain ⟨a', d, d1, d2⟩ := da
      have db : (UIP.DeleteByNet b (some n)).2 = true ↔
          (∃ q v, p <+: q ∧ lastNet m f q = some v) ∧ ¬ (f = .v6 ∧ HollowNet m p) := by
        cases b with
        | none =>
          refine ⟨fun e => by simp [UIP.DeleteByNet] at e, ?_⟩
          rintro ⟨⟨q, v, _, e⟩, _⟩
          rw [← hu, UIP.base_none, UIP.denT_new] at e; cases e
        | some t =>
          have hu : ∀ f q, UIP.denT t f q = lastNet m f q := hu
          obtain ⟨t', x, x1, x2, x3, x4, x5⟩ := UIP.deleteByNet_ok (t := t) b1 hn
          rw [x1]
          by_cases he : UIP.Effective t f p
          · rw [(x4 he).2]
            simp only [hu]
            refine ⟨fun e => ⟨e, ?_⟩, fun e => e.1⟩
            rintro ⟨rfl, h1, h2, _⟩
            rcases he with he | he | he
            · cases he
            · exact he h1
            · rw [hu, h2] at he; cases he
          · rw [x5 he]
            refine ⟨fun e => by simp at e, ?_⟩
            rintro ⟨⟨q, v, hq, hv⟩, hh⟩
            refine absurd ⟨?_, ?_, ?_, q, v, hq, ?_⟩ hh
            · cases f with | v4 => exact absurd (.inl rfl) he | v6 => rfl
            · exact Classical.byContradiction fun x => he (.inr (.inl x))
            · cases hw : lastNet m .v6 p with
              | none => rfl
              | some w =>
                exfalso
                cases f with
                | v4 => exact he (.inl rfl)
                | v6 => exact he (.inr (.inr (by rw [hu, hw]; rfl)))
            · cases f with | v4 => exact absurd (.inl rfl) he | v6 => exact hv
      refine ⟨a, a', d, a1, d1, ?_, fun e => d2.2 (db.1 e).1⟩
      have hx : (∃ m' p', some n = some m' ∧ IsNet m' .v6 p' ∧ HollowNet m p') ↔ f = .v6 ∧ HollowNet m p := by
        constructor
        · rintro ⟨m', p', e, e1, e2⟩
          obtain rfl := Option.some.inj e
          obtain ⟨rfl, rfl⟩ := IP.IsNet.unique hn e1
          exact ⟨rfl, e2⟩
        · rintro ⟨rfl, e⟩
          exact ⟨n, p, rfl, hn, e⟩
      rw [hx, Bool.eq_iff_iff, db, d2]
      constructor
      · rintro e ⟨hf, hh⟩
        subst hf
        exact (e.2 hh.2.2).2 ⟨rfl, hh⟩
      · exact fun e => ⟨fun x => x.1, fun x => ⟨x, e⟩⟩
    · have hn : ∀ f p, ¬ IsNet n f p := fun f p h => hn ⟨f, p, h⟩
      refine ⟨a, a, false, a1, IP.deleteByNet_bad hn, ?_, ?_⟩
      · rw [UIP.deleteByNet_bad hn]
        simp only [true_iff]
        rintro ⟨m', p', e, e1, _⟩
        obtain rfl := Option.some.inj e
        exact hn _ _ e1
      · rw [UIP.deleteByNet_bad hn]; simp

/-- What both trees list after the calls. -/
def bothList (ops : List (Op Nat)) : List Nat × List Nat :=
  (((IP.run none ops).map fun a => (IP.Enumerate a).map Prod.snd).getD [], (UIP.Enumerate (UIP.run none ops)).map Prod.snd)

/-- The calls of `sampleU`, then deletions: of a stored IPv6 network of 16 bits with others below it, and of one that is not stored and
empty, leave the trees in agreement; the deletion of the hollow `2000::/8` does not. -/
example : (bothList sampleU = ([2, 1, 3, 4, 5, 6], [2, 1, 3, 4, 5, 6])) ∧
    (bothList (.deleteByNet (some (net6 0x30 0 0 0 8)) :: .deleteByNet (some (net6 0x20 0x01 0 0 16)) :: sampleU) = ([2, 1, 3], [2, 1, 3])) ∧
    (bothList (.deleteByNet (some (net6 0x20 0 0 0 8)) :: sampleU) = ([2, 1, 3], [2, 1, 3, 4, 5, 6])) := by decide +kernel

/-- A history that deletes a stored IPv6 network of one bit with another below it; without the second insertion the network is hollow. -/
example : NoHollowDelete [(Op.deleteByNet (some (net6 0x80 0 0 0 1)), some (.v6, .delete [true])),
      (.insertNet (some (net6 0x80 0 0 0 1)) 1, some (.v6, POp.insert [true] 1)),
      (.insertNet (some (net6 0x80 0 0 0 2)) 2, some (.v6, POp.insert [true, false] 2))] ∧
    HollowNet [(.v6, POp.insert [true, false] 2)] [true] := by
  refine ⟨?_, by decide, by decide, [true, false], 2, by decide, by decide⟩
  intro op p rest hs hh
  simp only [List.suffix_cons_iff] at hs
  rcases hs with e | e | e | e
  · simp only [List.cons.injEq, Prod.mk.injEq, Option.some.injEq, POp.delete.injEq] at e
    obtain ⟨⟨_, _, rfl⟩, rfl⟩ := e
    exact absurd hh.2.1 (by decide)
  · simp at e
  · simp at e
  · simp at e

end Verif.Props
