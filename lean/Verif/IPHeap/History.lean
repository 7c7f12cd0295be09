import Verif.IPHeap.Inplace
import Verif.Heap.Obj

/-! # Readers of iptree on memory, and histories -/

namespace Verif.IPHeap
open Verif Verif.Heap Verif.Heap.Prog Verif.Heap.ATree Verif.Num Verif.NumHeap Verif.IP

variable {V : Type}

section
variable {f : Nat} (hf : 66 ≤ f) {h : Heap (IPD V)} {W : Addr → Prop}
include hf

theorem GetByNetP_spec {r : Ptr} {t : Option (Tree V)} {F : Addr → Prop} (hT : TRep h r t F) (n : Option IPNet) :
    wp W (GetByNetP f r n) (fun x h' => h' = h ∧ ∃ y : Option (AV V), x = y.map toHV ∧ GetByNet t n = y.map toTV) h := by
  unfold GetByNetP
  cases t with
  | none =>
    have : r = none := hT.1
    subst this
    exact ⟨rfl, none, rfl, rfl⟩
  | some t =>
    have hr0 : r ≠ none := by obtain ⟨_, _, _, rfl, _⟩ := hT; simp
    simp only [hr0, if_false]
    cases n with
    | none => exact ⟨rfl, none, rfl, rfl⟩
    | some n =>
      obtain ⟨A, P, _, hr, hA, hP, ht, _, _⟩ := hT.roots
      have hr := hr hr0
      simp only [Option.getD_some] at ht
      subst ht
      simp only [GetByNet]
      cases e4 : v4Key n with
      | some kb =>
        obtain ⟨key, bits⟩ := kb
        simp only
        rw [wp_bind]
        apply hr
        rw [wp_bind]
        refine wp_conseq (match4_spec hf hA.1 hA.2.1 key bits) ?_
        rintro _ h' ⟨e, rfl⟩
        refine ⟨e, (Num.Match (erase A) key bits).map .user, ?_, ?_⟩
        · simp only [Option.map_map]; rfl
        · simp only [Option.map_map]; rfl
      | none =>
        simp only
        cases e6 : v6Pair n with
        | none => exact ⟨rfl, none, rfl, rfl⟩
        | some k =>
          simp only
          rw [wp_bind]
          apply hr
          rw [wp_bind]
          refine wp_conseq (match6_spec hf hP.1 k.msKey k.msBits) ?_
          rintro _ h' ⟨e, rfl⟩
          have e := e.symm
          subst e
          rw [Match_map]
          cases eM : Num.Match (erase P) k.msKey k.msBits with
          | none => exact ⟨rfl, none, rfl, rfl⟩
          | some av =>
            simp only [Option.map_some]
            by_cases hm : k.msBits < 64
            · simp only [hm, if_true]; exact ⟨rfl, some av, rfl, rfl⟩
            · simp only [hm, if_false]
              cases av with
              | user u => exact ⟨rfl, some (.user u), rfl, rfl⟩
              | sub B =>
                simp only [toHV, toTV]
                have hB : Sub h B := by
                  simp only [Num.Match, Option.map_eq_some_iff] at eM
                  obtain ⟨nd, e1, e2⟩ := eM
                  have := vals_Match e1
                  rw [e2] at this
                  exact hP.1.sub _ this
                rw [wp_bind]
                refine wp_conseq (matchB_spec hf hB k.lsKey k.lsBits) ?_
                rintro _ h' ⟨e, rfl⟩
                have e := e.symm
                subst e
                cases eB : Num.Match (erase B) k.lsKey k.lsBits with
                | some y => exact ⟨rfl, some (.user y), rfl, rfl⟩
                | none =>
                  simp only [Option.map_none]
                  rw [wp_bind]
                  apply hr
                  refine wp_conseq (match6_spec hf hP.1 k.msKey 63) ?_
                  rintro _ h' ⟨e, rfl⟩
                  exact ⟨e, _, rfl, by rw [Match_map]⟩

theorem enum6P_spec (l : List (ND 64 (AV V))) (hl : ∀ n ∈ l, SubOk h n.value) :
    wp W (enum6P f (l.map (ND.mapV toHV))) (fun x h' => h' = h ∧ x = ((l.map (ND.mapV toTV)).flatMap enum6).map fun p => (p.1, HV.user p.2)) h := by
  induction l with
  | nil => exact ⟨rfl, rfl⟩
  | cons n l ih =>
    have ih := ih fun x hx => hl x (by simp [hx])
    have hn := hl n (by simp)
    obtain ⟨key, bits, leaf, av⟩ := n
    cases av with
    | user u =>
      simp only [List.map_cons, enum6P, ND.mapV, toHV]
      rw [wp_bind]
      refine wp_conseq ih ?_
      rintro _ h' ⟨e, rfl⟩
      refine ⟨e, ?_⟩
      simp [enum6, toTV, key6]
    | sub B =>
      simp only [List.map_cons, enum6P, ND.mapV, toHV]
      rw [wp_bind]
      refine wp_conseq (enumB_spec hf hn) ?_
      rintro _ h' ⟨e, rfl⟩
      have e := e.symm
      subst e
      rw [wp_bind]
      refine wp_conseq ih ?_
      rintro _ h' ⟨e, rfl⟩
      refine ⟨e, ?_⟩
      simp [enum6, ND.mapV, toTV, key6s, Function.comp_def]

omit hf in
theorem enumerate_vals {w : Nat} {W : Type} {t : NTree w W} {n : ND w W} (hn : n ∈ Num.enumerate t) : n.value ∈ vals t := by
  induction t with
  | nil => simp [Num.enumerate] at hn
  | node m l r ihl ihr =>
    simp only [Num.enumerate, List.mem_append] at hn
    simp only [vals, List.mem_cons, List.mem_append]
    grind

theorem EnumerateTreeP_spec {r : Ptr} {t : Option (Tree V)} {F : Addr → Prop} (hT : TRep h r t F) :
    wp W (EnumerateTreeP f r) (fun x h' => h' = h ∧ x = (IP.Enumerate t).map fun p => (p.1, HV.user p.2)) h := by
  unfold EnumerateTreeP
  cases t with
  | none =>
    have : r = none := hT.1
    subst this
    exact ⟨rfl, rfl⟩
  | some t =>
    have hr0 : r ≠ none := by obtain ⟨_, _, _, rfl, _⟩ := hT; simp
    simp only [hr0, if_false]
    obtain ⟨A, P, _, hr, hA, hP, ht, _, _⟩ := hT.roots
    have hr := hr hr0
    simp only [Option.getD_some] at ht
    subst ht
    rw [wp_bind]
    apply hr
    rw [wp_bind]
    refine wp_conseq (enum4_spec hf hA.1 hA.2.1) ?_
    rintro _ h' ⟨e, rfl⟩
    have e := e.symm
    subst e
    rw [wp_bind]
    refine wp_conseq (enum6_spec hf hP.1) ?_
    rintro _ h' ⟨e, rfl⟩
    have e := e.symm
    subst e
    rw [wp_bind]
    refine wp_conseq (enum6P_spec hf _ fun n hn => hP.1.sub _ (enumerate_vals hn)) ?_
    rintro _ h' ⟨e, rfl⟩
    refine ⟨e, ?_⟩
    simp [IP.Enumerate, Num.Enumerate, enumerate_map, Function.comp_def]
end

/-! ## Reading does not write -/

theorem rootsP_readOnly (r : Ptr) : (rootsP (V := V) r).ReadOnly := by
  refine Prog.ReadOnly.lift _ ?_
  cases r with
  | none => trivial
  | some a => exact fun c => trivial

theorem GetByNetP_readOnly (f : Nat) (r : Ptr) (n : Option IPNet) : (GetByNetP (V := V) f r n).ReadOnly := by
  unfold GetByNetP
  split
  · trivial
  · split
    · trivial
    · split
      · exact (rootsP_readOnly r).bind fun _ => ((MatchP_readOnly _ _ _ _).lift _).bind fun _ => trivial
      · split
        · refine (rootsP_readOnly r).bind fun _ => ((MatchP_readOnly _ _ _ _).lift _).bind fun v => ?_
          split
          · trivial
          · split
            · trivial
            · split
              · trivial
              · refine ((MatchP_readOnly _ _ _ _).lift _).bind fun y => ?_
                split
                · trivial
                · exact (rootsP_readOnly r).bind fun _ => (MatchP_readOnly _ _ _ _).lift _
        · trivial

theorem enum6P_readOnly (f : Nat) (l : List (ND 64 (HV V))) : (enum6P f l).ReadOnly := by
  induction l with
  | nil => trivial
  | cons n l ih =>
    unfold enum6P
    split
    · exact ((EnumerateP_readOnly _ _).lift _).bind fun _ => ih.bind fun _ => trivial
    · exact ih.bind fun _ => trivial

theorem EnumerateTreeP_readOnly (f : Nat) (r : Ptr) : (EnumerateTreeP (V := V) f r).ReadOnly := by
  unfold EnumerateTreeP
  split
  · trivial
  · exact (rootsP_readOnly r).bind fun _ => ((EnumerateP_readOnly _ _).lift _).bind fun _ =>
      ((EnumerateP_readOnly _ _).lift _).bind fun _ => (enum6P_readOnly _ _).bind fun _ => trivial

/-! ## Histories -/

variable [Inhabited V]

/-- The tree a chain starts from: `NewTree()` or a nil `*Tree`. -/
def start0 : Bool → Option (Tree V)
  | true => some NewTree
  | false => none

omit [Inhabited V] in
theorem start0_empty (b : Bool) : EmptyT (V := V) (start0 b) := by cases b <;> simp [start0, EmptyT]

/-- A copy-on-write call. -/
def cowP (f : Nat) : Op V → Ptr → Prog (IPD V) Ptr
  | .insertNet n v, r => InsertNetP f r n v
  | .insertIP ip v, r => InsertIPP f r ip v
  | .deleteByNet n, r => do let x ← DeleteByNetP f r n; pure x.1
  | .deleteByIP ip, r => do let x ← DeleteByIPP f r ip; pure x.1

/-- The in-place call for an insertion. -/
def inpP (f : Nat) : Op V → Ptr → Prog (IPD V) Ptr
  | .insertNet n v, r => do InplaceInsertNetP f r n v; pure r
  | .insertIP ip v, r => do InplaceInsertIPP f r ip v; pure r
  | _, _ => .stop .panic

/-- Calls with an in-place form. -/
def isIns : Op V → Prop
  | .insertNet _ _ => True
  | .insertIP _ _ => True
  | _ => False

/-- iptree as an implementation of histories.  Chains start from `NewTree()` or from nil; in-place calls on a nil tree panic. -/
def ipImpl (st : Bool) (f : Nat) : OImpl (IPD V) (Op V) Ptr where
  fresh := if st then newTreeP none none else pure none
  cow := cowP f
  inp := inpP f
  cowOk _ _ := True
  inpOk _ o := st = true ∧ isIns o
  Obj h r ops F := ∃ t, IP.run (start0 st) ops = some t ∧ TRep h r t F

theorem run_total (b : Bool) (ops : List (Op V)) : ∃ t, IP.run (start0 b) ops = some t := by
  have : ∃ ps : List (Op V × Option (Fam × POp V)), ps.map Prod.fst = ops ∧ ∀ p ∈ ps, OpNet p.1 p.2 := by
    induction ops with
    | nil => exact ⟨[], rfl, by simp⟩
    | cons op ops ih =>
      obtain ⟨ps, h1, h2⟩ := ih
      obtain ⟨o, ho⟩ := OpNet.total op
      refine ⟨(op, o) :: ps, by simp [h1], ?_⟩
      simp only [List.mem_cons, forall_eq_or_imp]
      exact ⟨ho, h2⟩
  obtain ⟨ps, h1, h2⟩ := this
  obtain ⟨t, h3, _⟩ := run_spec (start0_empty b) ps h2
  exact ⟨t, by rw [← h1]; exact h3⟩

omit [Inhabited V] in
theorem insertNet_isSome [Inhabited V] {t : Tree V} {n : Option IPNet} {v : V} {t' : Option (Tree V)} (h : InsertNet (some t) n v = some t') : t'.isSome := by
  unfold InsertNet at h
  split at h
  · cases h; rfl
  · simp only at h
    split at h
    · cases h; rfl
    · split at h
      · split at h
        · cases h; rfl
        · simp only [Option.map_eq_some_iff] at h
          obtain ⟨s, _, rfl⟩ := h; rfl
      · cases h; rfl

theorem deleteByNet_isSome {t : Tree V} {n : Option IPNet} {t' : Option (Tree V)} {b : Bool} (h : DeleteByNet (some t) n = some (t', b)) : t'.isSome := by
  unfold DeleteByNet at h
  split at h
  · rename_i t1 n1 e1 e2
    split at h
    · split at h <;> (cases h; rfl)
    · split at h
      · split at h
        · split at h <;> (cases h; rfl)
        · split at h
          · cases h; rfl
          · simp only [Option.map_eq_some_iff] at h
            obtain ⟨s, _, h⟩ := h
            split at h
            · split at h <;> (cases h; rfl)
            · cases h; rfl
      · cases h; rfl
  · cases h; rfl

theorem step_isSome {t : Tree V} {o : Op V} {t' : Option (Tree V)} (h : IP.step (some t) o = some t') : t'.isSome := by
  cases o with
  | insertNet n v => exact insertNet_isSome h
  | insertIP ip v => exact insertNet_isSome h
  | deleteByNet n =>
    simp only [IP.step, Option.map_eq_some_iff] at h
    obtain ⟨⟨t1, b⟩, h1, rfl⟩ := h
    exact deleteByNet_isSome h1
  | deleteByIP ip =>
    simp only [IP.step, Option.map_eq_some_iff] at h
    obtain ⟨⟨t1, b⟩, h1, rfl⟩ := h
    exact deleteByNet_isSome h1

theorem run_isSome {ops : List (Op V)} {t : Option (Tree V)} (h : IP.run (start0 true) ops = some t) : t.isSome := by
  induction ops generalizing t with
  | nil => cases h; rfl
  | cons o ops ih =>
    simp only [IP.run, Option.bind_eq_some_iff] at h
    obtain ⟨u, h1, h2⟩ := h
    have := ih h1
    cases u with
    | none => simp at this
    | some u => exact step_isSome h2

theorem ipImpl_lawful (st : Bool) {f : Nat} (hf : 66 ≤ f) (n : Nat) : (ipImpl (V := V) st f).Lawful n where
  fresh_ok h := by
    cases st with
    | false => exact ⟨fun _ => False, ⟨none, rfl, rfl, fun _ => id⟩, fun _ => False.elim⟩
    | true =>
      refine wp_conseq (wp_mk (h0 := h) (F := fun _ => False) (A := .nil) (P := .nil) ⟨trivial, trivial, by simp⟩ ⟨rep6_nil h, by simp [tot]⟩ (Nat.le_refl _) (by simp) (by simp [tot])) ?_
      rintro r h' ⟨F, h1, h2⟩
      exact ⟨F, ⟨_, rfl, h1⟩, fun x hx => (h2 x hx).resolve_right id⟩
  lt := fun ⟨_, _, hT⟩ ha => hT.lt ha
  frame := fun ⟨t, h1, hT⟩ hn hm => ⟨t, h1, hT.frame hn hm⟩
  cow_ok l o r h F _ _ := fun ⟨t, h1, hT⟩ => by
    obtain ⟨t', h2⟩ := run_total (V := V) st (o :: l)
    have h3 : IP.step t o = some t' := by simpa [IP.run, h1] using h2
    have key : wp (fun a => h.next ≤ a) (cowP f o r) (fun r' h' => ∃ F', TRep h' r' t' F' ∧ ∀ x, F' x → h.next ≤ x ∨ F x) h := by
      cases o with
      | insertNet n v => exact InsertNetP_spec hf hT h3
      | insertIP ip v => exact InsertNetP_spec hf hT h3
      | deleteByNet n =>
        simp only [IP.step, Option.map_eq_some_iff] at h3
        obtain ⟨⟨t1, b⟩, h3, rfl⟩ := h3
        unfold cowP
        rw [wp_bind]
        exact wp_conseq (DeleteByNetP_spec hf hT h3) fun _ _ q => q.2
      | deleteByIP ip =>
        simp only [IP.step, Option.map_eq_some_iff] at h3
        obtain ⟨⟨t1, b⟩, h3, rfl⟩ := h3
        unfold cowP
        rw [wp_bind]
        exact wp_conseq (DeleteByNetP_spec hf hT h3) fun _ _ q => q.2
    refine wp_conseq key ?_
    rintro r' h' ⟨F', q1, q2⟩
    exact ⟨F', ⟨t', h2, q1⟩, q2⟩
  inp_ok l o r h F _ ho := fun ⟨t, h1, hT⟩ => by
    obtain ⟨rfl, ho⟩ := ho
    obtain ⟨t', h2⟩ := run_total (V := V) true (o :: l)
    have h3 : IP.step t o = some t' := by simpa [IP.run, h1] using h2
    have := run_isSome h1
    cases t with
    | none => simp at this
    | some t =>
      have ⟨a, _, _, hr, _⟩ := hT
      subst hr
      have key : wp (fun x => F x ∨ h.next ≤ x) (inpP f o (some a)) (fun r' h' => ∃ F', TRep h' r' t' F' ∧ ∀ x, F' x → h.next ≤ x ∨ F x) h := by
        cases o with
        | insertNet n v =>
          unfold inpP
          rw [wp_bind]
          exact InplaceInsertNetP_spec hf hT h3
        | insertIP ip v =>
          unfold inpP
          rw [wp_bind]
          exact InplaceInsertNetP_spec hf hT h3
        | deleteByNet n => exact ho.elim
        | deleteByIP ip => exact ho.elim
      refine wp_conseq key ?_
      rintro r' h' ⟨F', q1, q2⟩
      exact ⟨F', ⟨t', h2, q1⟩, q2⟩

end Verif.IPHeap
