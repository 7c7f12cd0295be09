import Verif.IP.Enum

/-! # Histories of iptree calls -/

namespace Verif.IP
open Verif Verif.Num
variable {V : Type}

/-- One call. -/
inductive Op (V : Type) where
  | insertNet (n : Option IPNet) (v : V)
  | insertIP (ip : Bytes) (v : V)
  | deleteByNet (n : Option IPNet)
  | deleteByIP (ip : Bytes)

/-- What the caller means by a call: an insertion or deletion in a family, or nothing for a malformed argument. -/
inductive OpNet : Op V → Option (Fam × POp V) → Prop where
  | insertNet {n f p v} : IsNet n f p → OpNet (.insertNet (some n) v) (some (f, .insert p v))
  | insertNil {v} : OpNet (.insertNet none v) none
  | insertBad {n v} : (∀ f p, ¬ IsNet n f p) → OpNet (.insertNet (some n) v) none
  | insertIP {ip f p v} : IsAddr ip f p → OpNet (.insertIP ip v) (some (f, .insert p v))
  | insertBadIP {ip v} : (∀ f p, ¬ IsAddr ip f p) → OpNet (.insertIP ip v) none
  | deleteNet {n f p} : IsNet n f p → OpNet (.deleteByNet (some n)) (some (f, .delete p))
  | deleteNil : OpNet (.deleteByNet none) none
  | deleteBad {n} : (∀ f p, ¬ IsNet n f p) → OpNet (.deleteByNet (some n)) none
  | deleteIP {ip f p} : IsAddr ip f p → OpNet (.deleteByIP ip) (some (f, .delete p))
  | deleteBadIP {ip} : (∀ f p, ¬ IsAddr ip f p) → OpNet (.deleteByIP ip) none

variable [Inhabited V]

/-- Perform one call; `none` is a panic. -/
def step (t : Option (Tree V)) : Op V → Option (Option (Tree V))
  | .insertNet n v => InsertNet t n v
  | .insertIP ip v => InsertIP t ip v
  | .deleteByNet n => (DeleteByNet t n).map Prod.fst
  | .deleteByIP ip => (DeleteByIP t ip).map Prod.fst

/-- Run a history, newest call first. -/
def run (t0 : Option (Tree V)) : List (Op V) → Option (Option (Tree V))
  | [] => some t0
  | op :: ops => (run t0 ops).bind fun t => step t op

omit [Inhabited V] in
/-- Every call has a meaning. -/
theorem OpNet.total (op : Op V) : ∃ o, OpNet op o := by
  cases op with
  | insertNet n v =>
    cases n with
    | none => exact ⟨_, .insertNil⟩
    | some n =>
      by_cases h : ∃ f p, IsNet n f p
      · obtain ⟨f, p, h⟩ := h; exact ⟨_, .insertNet h⟩
      · exact ⟨_, .insertBad fun f p hn => h ⟨f, p, hn⟩⟩
  | insertIP ip v =>
    by_cases h : ∃ f p, IsAddr ip f p
    · obtain ⟨f, p, h⟩ := h; exact ⟨_, .insertIP h⟩
    · exact ⟨_, .insertBadIP fun f p hn => h ⟨f, p, hn⟩⟩
  | deleteByNet n =>
    cases n with
    | none => exact ⟨_, .deleteNil⟩
    | some n =>
      by_cases h : ∃ f p, IsNet n f p
      · obtain ⟨f, p, h⟩ := h; exact ⟨_, .deleteNet h⟩
      · exact ⟨_, .deleteBad fun f p hn => h ⟨f, p, hn⟩⟩
  | deleteByIP ip =>
    by_cases h : ∃ f p, IsAddr ip f p
    · obtain ⟨f, p, h⟩ := h; exact ⟨_, .deleteIP h⟩
    · exact ⟨_, .deleteBadIP fun f p hn => h ⟨f, p, hn⟩⟩

omit [Inhabited V] in
theorem lastNet_cons (f g : Fam) (o : POp V) (ops : List (Fam × POp V)) (q : List Bool) :
    lastNet ((f, o) :: ops) g q = if g = f then (match o with
      | .insert p v => if q = p then some v else lastNet ops g q
      | .delete p => if p <+: q then none else lastNet ops g q) else lastNet ops g q := by
  unfold lastNet
  by_cases h : g = f
  · subst h
    simp only [List.filter_cons, decide_true, if_true, List.map_cons]
    cases o <;> rfl
  · have h' : ¬ f = g := fun e => h e.symm
    simp [h, h']

/-- Effect of an abstract operation on the map. -/
def Eff (t' t : Tree V) (o : Option (Fam × POp V)) : Prop :=
  ∀ (ops : List (Fam × POp V)), (∀ g q, denT t g q = lastNet ops g q) → ∀ g q, denT t' g q = lastNet (o.toList ++ ops) g q

omit [Inhabited V] in
theorem eff_none (t : Tree V) : Eff t t none := fun ops h g q => by simpa using h g q

theorem insert_eff {t : Option (Tree V)} (h : WFT (base t)) {n : IPNet} {f : Fam} {p : List Bool} (hn : IsNet n f p) (v : V) :
    ∃ t', InsertNet t (some n) v = some (some t') ∧ WFT t' ∧ Eff t' (base t) (some (f, .insert p v)) := by
  obtain ⟨t', h1, h2, h3⟩ := insertNet_ok h hn v
  refine ⟨t', h1, h2, fun ops ho g q => ?_⟩
  rw [h3, ho]
  simp only [Option.toList_some, List.singleton_append, lastNet_cons]
  by_cases hg : g = f <;> by_cases hq : q = p <;> simp [hg, hq]

theorem delete_eff {t : Option (Tree V)} (h : WFT (base t)) {n : IPNet} {f : Fam} {p : List Bool} (hn : IsNet n f p) :
    ∃ t' d, DeleteByNet t (some n) = some (t', d) ∧ WFT (base t') ∧ Eff (base t') (base t) (some (f, .delete p)) := by
  cases t with
  | none =>
    refine ⟨none, false, rfl, h, fun ops ho g q => ?_⟩
    have := ho g q
    rw [base_none, denT_new] at this ⊢
    simp only [Option.toList_some, List.singleton_append, lastNet_cons, ← this]
    split
    · split <;> rfl
    · rfl
  | some t =>
    obtain ⟨t', d, h1, h2, h3, _, _⟩ := deleteByNet_ok h hn
    refine ⟨some t', d, h1, h2, fun ops ho g q => ?_⟩
    rw [base_some, h3, ho]
    simp only [Option.toList_some, List.singleton_append, lastNet_cons]
    by_cases hg : g = f <;> by_cases hq : p <+: q <;> simp [hg, hq]

theorem step_spec {t : Option (Tree V)} (h : WFT (base t)) {op : Op V} {o : Option (Fam × POp V)} (ho : OpNet op o) :
    ∃ t', step t op = some t' ∧ WFT (base t') ∧ Eff (base t') (base t) o := by
  cases ho with
  | insertNet hn =>
    obtain ⟨t', h1, h2, h3⟩ := insert_eff h hn _
    exact ⟨some t', h1, h2, h3⟩
  | insertNil => exact ⟨t, rfl, h, eff_none _⟩
  | insertBad hb => exact ⟨t, insertNet_bad hb _, h, eff_none _⟩
  | insertIP hn =>
    obtain ⟨n, e, hn⟩ := newIPNet_of_addr hn
    obtain ⟨t', h1, h2, h3⟩ := insert_eff h hn _
    exact ⟨some t', by simpa [step, InsertIP, e] using h1, h2, h3⟩
  | insertBadIP hb => exact ⟨t, by simp [step, InsertIP, newIPNet_none hb, InsertNet], h, eff_none _⟩
  | deleteNet hn =>
    obtain ⟨t', d, h1, h2, h3⟩ := delete_eff h hn
    exact ⟨t', by simp [step, h1], h2, h3⟩
  | deleteNil => exact ⟨t, by cases t <;> rfl, h, eff_none _⟩
  | deleteBad hb => exact ⟨t, by simp [step, deleteByNet_bad hb], h, eff_none _⟩
  | deleteIP hn =>
    obtain ⟨n, e, hn⟩ := newIPNet_of_addr hn
    obtain ⟨t', d, h1, h2, h3⟩ := delete_eff h hn
    exact ⟨t', by simp [step, DeleteByIP, e, h1], h2, h3⟩
  | deleteBadIP hb =>
    refine ⟨t, ?_, h, eff_none _⟩
    simp only [step, DeleteByIP, newIPNet_none hb]
    cases t <;> rfl

/-- Empty trees to start from. -/
def EmptyT (t : Option (Tree V)) : Prop := t = none ∨ t = some NewTree

theorem run_spec {t0 : Option (Tree V)} (h0 : EmptyT t0) (ops : List (Op V × Option (Fam × POp V))) (h : ∀ p ∈ ops, OpNet p.1 p.2) :
    ∃ t, run t0 (ops.map Prod.fst) = some t ∧ WFT (base t) ∧ ∀ f q, denT (base t) f q = lastNet (ops.filterMap Prod.snd) f q := by
  induction ops with
  | nil =>
    refine ⟨t0, rfl, ?_⟩
    rcases h0 with rfl | rfl
    · exact ⟨wft_new, fun f q => denT_new f q⟩
    · exact ⟨wft_new, fun f q => denT_new f q⟩
  | cons p ops ih =>
    obtain ⟨t, h1, h2, h3⟩ := ih fun x hx => h x (by simp [hx])
    obtain ⟨t', s1, s2, s3⟩ := step_spec h2 (h p (by simp))
    refine ⟨t', by simp [run, h1, s1], s2, fun f q => ?_⟩
    rw [s3 _ h3]
    obtain ⟨op, o⟩ := p
    cases o <;> rfl

end Verif.IP
