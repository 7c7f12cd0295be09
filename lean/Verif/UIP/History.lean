import Verif.UIP.Lemmas

/-! # Histories of calls on the generated IP trees -/

namespace Verif.UIP
open Verif Verif.Num
open Verif.IP (Op OpNet newIPNetFromIP newIPNet_of_addr newIPNet_none)
variable {V : Type} [Inhabited V]

/-- Perform one call. -/
def step (t : Option (Tree V)) : Op V → Option (Tree V)
  | .insertNet n v => InsertNet t n v
  | .insertIP ip v => InsertIP t ip v
  | .deleteByNet n => (DeleteByNet t n).1
  | .deleteByIP ip => (DeleteByIP t ip).1

/-- Run a history, newest call first. -/
def run (t0 : Option (Tree V)) : List (Op V) → Option (Tree V)
  | [] => t0
  | op :: ops => step (run t0 ops) op

omit [Inhabited V] in
/-- The effect of an abstract operation as the generated packages perform it. -/
def uStep (m : Fam → PMap V) : Fam × POp V → Fam → PMap V
  | (f, .insert p v), g, q => if g = f ∧ q = p then some v else m g q
  | (f, .delete p), g, q => if g = f ∧ p <+: q ∧ (f = .v4 ∨ ¬ p.length < 64 ∨ (m f p).isSome = true) then none else m g q

omit [Inhabited V] in
/-- What a history (newest first) leaves stored. -/
def uRun : List (Fam × POp V) → Fam → PMap V
  | [] => fun _ _ => none
  | o :: ops => uStep (uRun ops) o

theorem insert_eff {t : Option (Tree V)} (h : WFT (base t)) {n : IPNet} {f : Fam} {p : List Bool} (hn : IsNet n f p) (v : V) :
    WFT (base (InsertNet t (some n) v)) ∧ denT (base (InsertNet t (some n) v)) = uStep (denT (base t)) (f, .insert p v) := by
  obtain ⟨t', h1, h2, h3⟩ := insertNet_ok h hn v
  rw [h1]
  exact ⟨h2, funext fun g => funext fun q => h3 g q⟩

omit [Inhabited V] in
theorem delete_eff {t : Option (Tree V)} (h : WFT (base t)) {n : IPNet} {f : Fam} {p : List Bool} (hn : IsNet n f p) :
    WFT (base (DeleteByNet t (some n)).1) ∧ denT (base (DeleteByNet t (some n)).1) = uStep (denT (base t)) (f, .delete p) := by
  cases t with
  | none =>
    refine ⟨h, funext fun g => funext fun q => ?_⟩
    have : (DeleteByNet none (some n)).1 = (none : Option (Tree V)) := rfl
    rw [this]
    simp only [uStep, base_none, denT_new]
    split <;> rfl
  | some t =>
    obtain ⟨t', d, h1, h2, h3, h4, h5⟩ := deleteByNet_ok (t := t) h hn
    rw [h1]
    refine ⟨h2, funext fun g => funext fun q => ?_⟩
    show denT t' g q = uStep (denT t) (f, .delete p) g q
    by_cases he : Effective t f p
    · have e := (h4 he).1 g q
      simp only [uStep]
      rw [e]
      unfold Effective at he
      simp only [he, and_true]
    · have e := h3 (h5 he)
      simp only [uStep]
      rw [e, if_neg (fun x => he x.2.2)]

theorem step_spec {t : Option (Tree V)} (h : WFT (base t)) {op : Op V} {o : Option (Fam × POp V)} (ho : OpNet op o) :
    WFT (base (step t op)) ∧ denT (base (step t op)) = (match o with | none => denT (base t) | some o => uStep (denT (base t)) o) := by
  cases ho with
  | insertNet hn => exact insert_eff h hn _
  | insertNil => exact ⟨h, rfl⟩
  | insertBad hb => simp only [step, insertNet_bad hb]; exact ⟨h, trivial⟩
  | insertIP hn =>
    obtain ⟨n, e, hn⟩ := newIPNet_of_addr hn
    simp only [step, InsertIP, e]
    exact insert_eff h hn _
  | insertBadIP hb => simp only [step, InsertIP, newIPNet_none hb, InsertNet]; exact ⟨h, trivial⟩
  | deleteNet hn => exact delete_eff h hn
  | deleteNil => cases t <;> exact ⟨h, rfl⟩
  | deleteBad hb => simp only [step, deleteByNet_bad hb]; exact ⟨h, trivial⟩
  | deleteIP hn =>
    obtain ⟨n, e, hn⟩ := newIPNet_of_addr hn
    simp only [step, DeleteByIP, e]
    exact delete_eff h hn
  | deleteBadIP hb =>
    simp only [step, DeleteByIP, newIPNet_none hb]
    cases t <;> exact ⟨h, rfl⟩

/-- Empty trees to start from. -/
def EmptyT (t : Option (Tree V)) : Prop := t = none ∨ t = some NewTree

theorem run_spec {t0 : Option (Tree V)} (h0 : EmptyT t0) (ops : List (Op V × Option (Fam × POp V))) (h : ∀ p ∈ ops, OpNet p.1 p.2) :
    WFT (base (run t0 (ops.map Prod.fst))) ∧ denT (base (run t0 (ops.map Prod.fst))) = uRun (ops.filterMap Prod.snd) := by
  induction ops with
  | nil =>
    rcases h0 with rfl | rfl
    · exact ⟨wft_new, funext fun f => funext fun q => denT_new f q⟩
    · exact ⟨wft_new, funext fun f => funext fun q => denT_new f q⟩
  | cons p ops ih =>
    obtain ⟨h1, h2⟩ := ih fun x hx => h x (by simp [hx])
    obtain ⟨s1, s2⟩ := step_spec h1 (h p (by simp))
    simp only [List.map_cons, run]
    refine ⟨s1, ?_⟩
    rw [s2]
    obtain ⟨op, o⟩ := p
    cases o with
    | none => exact h2
    | some o =>
      show uStep _ o = uStep _ o
      rw [h2]

omit [Inhabited V] in
/-- Without a deletion of an IPv6 network below 64 bits the history means what it means for iptree. -/
theorem uRun_eq_lastNet (ops : List (Fam × POp V)) (h : ∀ f p, (f, POp.delete p) ∈ ops → f = .v4 ∨ ¬ p.length < 64) :
    ∀ f q, uRun ops f q = lastNet ops f q := by
  induction ops with
  | nil => intro f q; rfl
  | cons o ops ih =>
    intro f q
    have ih := ih fun f p hp => h f p (by simp [hp])
    obtain ⟨g, o⟩ := o
    rw [IP.lastNet_cons]
    cases o with
    | insert p v =>
      simp only [uRun, uStep, ih]
      by_cases hg : f = g <;> by_cases hq : q = p <;> simp [hg, hq]
    | delete p =>
      have hp := h g p (by simp)
      have : g = .v4 ∨ ¬ p.length < 64 ∨ (uRun ops g p).isSome = true := hp.imp id .inl
      simp only [uRun, uStep]
      simp only [this, and_true]
      simp only [ih]
      by_cases hg : f = g <;> by_cases hq : p <+: q <;> simp [hg, hq]

end Verif.UIP
