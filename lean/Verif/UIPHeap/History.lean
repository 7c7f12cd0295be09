import Verif.UIP.Held
import Verif.UIPHeap.Inplace
import Verif.Heap.Keep

/-! # Readers of the generated IP trees on memory, and histories -/

namespace Verif.UIPHeap
open Verif Verif.Heap Verif.Heap.Prog Verif.Heap.ATree Verif.Num Verif.NumHeap
open Verif.IP (v4Key v6Pair newIPNetFromIP Op OpNet newIPNet_of_addr newIPNet_none key4)
open Verif.UIP (Tree WFT denT base)

variable {V : Type}

section
variable {f : Nat} (hf : 66 ≤ f) {h : Heap (UD V)} {W : Addr → Prop}
include hf

omit hf in
/-- A nested tree found by `Match` is in memory. -/
theorem sub_match {P : ATree (ND 64 (AB V))} (hP : Rep6 h P) {k : BitVec 64} {b : Int} {B : AB V} (e : Num.Match (erase P) k b = some B) : Sub h B := by
  simp only [Num.Match, Option.map_eq_some_iff] at e
  obtain ⟨nd, e1, e2⟩ := e
  have := vals_Match e1
  rw [e2] at this
  exact hP.sub _ this

theorem GetByNetP_spec {r : Ptr} {t : Option (Tree V)} {F : Addr → Prop} (hT : TRep h r t F) (n : Option IPNet) :
    wp W (GetByNetP f r n) (fun x h' => h' = h ∧ x = UIP.GetByNet t n) h := by
  unfold GetByNetP
  cases t with
  | none =>
    have : r = none := hT.1
    subst this
    exact ⟨rfl, rfl⟩
  | some t =>
    have hr0 : r ≠ none := by obtain ⟨_, _, _, rfl, _⟩ := hT; simp
    simp only [hr0, if_false]
    cases n with
    | none => exact ⟨rfl, rfl⟩
    | some n =>
      obtain ⟨A, P, _, hA, hP, ht, _, _, hr⟩ := hT.roots
      have hr := hr hr0 h (Nat.le_refl _) fun _ _ => rfl
      simp only [Option.getD_some] at ht
      subst ht
      simp only [UIP.GetByNet]
      cases e4 : v4Key n with
      | some kb =>
        obtain ⟨key, bits⟩ := kb
        simp only
        rw [wp_bind]
        apply hr
        exact match4_spec hf hA.1 hA.2.1 key bits
      | none =>
        simp only
        cases e6 : v6Pair n with
        | none => exact ⟨rfl, rfl⟩
        | some k =>
          simp only
          rw [wp_bind]
          apply hr
          rw [wp_bind]
          refine wp_conseq (match6_spec hf hP.1 k.msKey k.msBits) ?_
          rintro _ h' ⟨e, rfl⟩
          have e := e.symm
          subst e
          simp only [Match_map]
          cases eM : Num.Match (erase P) k.msKey k.msBits with
          | none => exact ⟨rfl, rfl⟩
          | some B =>
            simp only [Option.map_some]
            rw [wp_bind]
            refine wp_conseq (matchB_spec hf (sub_match hP.1 eM) k.lsKey k.lsBits) ?_
            rintro _ h' ⟨e, rfl⟩
            have e := e.symm
            subst e
            cases eB : Num.Match (erase B) k.lsKey k.lsBits with
            | some y => exact ⟨rfl, rfl⟩
            | none =>
              simp only
              by_cases hm : k.msBits < 64
              · simp only [hm, if_true]; exact ⟨rfl, rfl⟩
              · simp only [hm, if_false]
                rw [wp_bind]
                apply hr
                rw [wp_bind]
                refine wp_conseq (match6_spec hf hP.1 k.msKey ((k.msBits : Int) - 1)) ?_
                rintro _ h' ⟨e, rfl⟩
                have e := e.symm
                subst e
                cases eM2 : Num.Match (erase P) k.msKey ((k.msBits : Int) - 1) with
                | none => exact ⟨rfl, rfl⟩
                | some B2 => exact matchB_spec hf (sub_match hP.1 eM2) k.lsKey k.lsBits

theorem enum6P_spec (l : List (ND 64 (AB V))) (hl : ∀ n ∈ l, Sub h n.value) :
    wp W (enum6P f (l.map (ND.mapV ptr))) (fun x h' => h' = h ∧ x = (l.map (ND.mapV erase)).flatMap UIP.enum6) h := by
  induction l with
  | nil => exact ⟨rfl, rfl⟩
  | cons n l ih =>
    have ih := ih fun x hx => hl x (by simp [hx])
    have hn := hl n (by simp)
    simp only [List.map_cons, enum6P]
    rw [wp_bind]
    refine wp_conseq (enumB_spec hf hn) ?_
    rintro _ h' ⟨e, rfl⟩
    have e := e.symm
    subst e
    rw [wp_bind]
    refine wp_conseq ih ?_
    rintro _ h' ⟨e, rfl⟩
    exact ⟨e, rfl⟩

omit hf in
theorem enumerate_vals {w : Nat} {W : Type} {t : NTree w W} {n : ND w W} (hn : n ∈ Num.enumerate t) : n.value ∈ vals t := by
  induction t with
  | nil => simp [Num.enumerate] at hn
  | node m l r ihl ihr =>
    simp only [Num.enumerate, List.mem_append] at hn
    simp only [vals, List.mem_cons, List.mem_append]
    grind

theorem EnumerateTreeP_spec {r : Ptr} {t : Option (Tree V)} {F : Addr → Prop} (hT : TRep h r t F) :
    wp W (EnumerateTreeP f r) (fun x h' => h' = h ∧ x = UIP.Enumerate t) h := by
  unfold EnumerateTreeP
  cases t with
  | none =>
    have : r = none := hT.1
    subst this
    exact ⟨rfl, rfl⟩
  | some t =>
    have hr0 : r ≠ none := by obtain ⟨_, _, _, rfl, _⟩ := hT; simp
    simp only [hr0, if_false]
    obtain ⟨A, P, _, hA, hP, ht, _, _, hr⟩ := hT.roots
    have hr := hr hr0 h (Nat.le_refl _) fun _ _ => rfl
    simp only [Option.getD_some] at ht
    subst ht
    rw [wp_bind]
    apply hr
    rw [wp_bind]
    refine wp_conseq (enum4_spec hf hA.1 hA.2.1) ?_
    rintro _ h' ⟨e, rfl⟩
    have e := e.symm
    subst e
    rw [wp_bind]
    apply hr
    rw [wp_bind]
    refine wp_conseq (enum6_spec hf hP.1) ?_
    rintro _ h' ⟨e, rfl⟩
    have e := e.symm
    subst e
    rw [wp_bind]
    refine wp_conseq (enum6P_spec hf _ fun n hn => hP.1.sub _ (enumerate_vals hn)) ?_
    rintro _ h' ⟨e, rfl⟩
    refine ⟨e, ?_⟩
    simp [UIP.Enumerate, Num.Enumerate, enumerate_map]
end

/-! ## Reading does not write -/

theorem rootsP_readOnly (r : Ptr) : (rootsP (V := V) r).ReadOnly := by
  refine Prog.ReadOnly.lift _ ?_
  cases r with
  | none => trivial
  | some a => exact fun c => trivial

theorem GetByNetP_readOnly (f : Nat) (r : Ptr) (n : Option IPNet) : (GetByNetP (V := V) f r n).ReadOnly := by
  unfold GetByNetP
  split
  · trivial
  · split
    · trivial
    · split
      · exact (rootsP_readOnly r).bind fun _ => (MatchP_readOnly _ _ _ _).lift _
      · split
        · refine (rootsP_readOnly r).bind fun _ => ((MatchP_readOnly _ _ _ _).lift _).bind fun v => ?_
          split
          · trivial
          · refine ((MatchP_readOnly _ _ _ _).lift _).bind fun y => ?_
            split
            · trivial
            · split
              · trivial
              · refine (rootsP_readOnly r).bind fun _ => ((MatchP_readOnly _ _ _ _).lift _).bind fun z => ?_
                split
                · trivial
                · exact (MatchP_readOnly _ _ _ _).lift _
        · trivial

theorem enum6P_readOnly (f : Nat) (l : List (ND 64 Ptr)) : (enum6P (V := V) f l).ReadOnly := by
  induction l with
  | nil => trivial
  | cons n l ih =>
    unfold enum6P
    exact ((EnumerateP_readOnly _ _).lift _).bind fun _ => ih.bind fun _ => trivial

theorem EnumerateTreeP_readOnly (f : Nat) (r : Ptr) : (EnumerateTreeP (V := V) f r).ReadOnly := by
  unfold EnumerateTreeP
  split
  · trivial
  · exact (rootsP_readOnly r).bind fun _ => ((EnumerateP_readOnly _ _).lift _).bind fun _ =>
      (rootsP_readOnly r).bind fun _ => ((EnumerateP_readOnly _ _).lift _).bind fun _ => (enum6P_readOnly _ _).bind fun _ => trivial

/-! ## Histories -/

variable [Inhabited V]

/-- The tree a chain starts from: `NewTree()` or a nil `*Tree`. -/
def start0 : Bool → Option (Tree V)
  | true => some UIP.NewTree
  | false => none

/-- A copy-on-write call. -/
def cowP (f : Nat) : Op V → Ptr → Prog (UD V) Ptr
  | .insertNet n v, r => InsertNetP f r n v
  | .insertIP ip v, r => InsertIPP f r ip v
  | .deleteByNet n, r => do let x ← DeleteByNetP f r n; pure x.1
  | .deleteByIP ip, r => do let x ← DeleteByIPP f r ip; pure x.1

/-- The in-place call for an insertion. -/
def inpP (f : Nat) : Op V → Ptr → Prog (UD V) Ptr
  | .insertNet n v, r => do InplaceInsertNetP f r n v; pure r
  | .insertIP ip v, r => do InplaceInsertIPP f r ip v; pure r
  | _, _ => .stop .panic

/-- Calls with an in-place form. -/
def isIns : Op V → Prop
  | .insertNet _ _ => True
  | .insertIP _ _ => True
  | _ => False

/-- The tree stands for what the calls `ops` leave, however they are read as networks. -/
def Leaves (t : Option (Tree V)) (ops : List (Op V)) : Prop :=
  WFT (base t) ∧ ∀ ps : List (Op V × Option (Fam × POp V)), ps.map Prod.fst = ops → (∀ p ∈ ps, OpNet p.1 p.2) → denT (base t) = UIP.uRun (ps.filterMap Prod.snd)

omit [Inhabited V] in
theorem leaves_start (st : Bool) : Leaves (V := V) (start0 st) [] := by
  have : base (start0 (V := V) st) = ⟨.nil, .nil⟩ := by cases st <;> rfl
  refine ⟨by rw [this]; exact UIP.wft_new, fun ps h1 _ => ?_⟩
  cases ps with
  | cons => simp at h1
  | nil => rw [this]; exact funext fun f => funext fun q => UIP.denT_new f q

theorem leaves_step {t : Option (Tree V)} {ops : List (Op V)} (h : Leaves t ops) {o o' : Op V} (ho : ∀ x, OpNet o x → OpNet o' x) : Leaves (UIP.step t o') (o :: ops) := by
  constructor
  · obtain ⟨x, hx⟩ := OpNet.total o
    exact (UIP.step_spec h.1 (ho x hx)).1
  · intro ps h1 h2
    cases ps with
    | nil => simp at h1
    | cons p ps =>
      simp only [List.map_cons, List.cons.injEq] at h1
      obtain ⟨rfl, h1⟩ := h1
      rw [(UIP.step_spec h.1 (ho p.2 (h2 p (by simp)))).2, h.2 ps h1 fun x hx => h2 x (by simp [hx])]
      obtain ⟨op, o⟩ := p
      cases o <;> rfl

omit [Inhabited V] in
theorem opNet_same {n n' : Option IPNet} (h : SameNet n n') (v : V) {x : Option (Fam × POp V)} (hx : OpNet (.insertNet n v) x) : OpNet (.insertNet n' v) x := by
  rcases h with rfl | ⟨m, m', rfl, rfl, h⟩
  · exact hx
  · cases hx with
    | insertNet hn => exact .insertNet ((h _ _).1 hn)
    | insertBad hn => exact .insertBad fun f p q => hn f p ((h f p).2 q)

omit [Inhabited V] in
theorem opNet_ip {ip : Bytes} {v : V} {x : Option (Fam × POp V)} (hx : OpNet (.insertIP ip v) x) : OpNet (.insertNet (newIPNetFromIP ip) v) x := by
  cases hx with
  | insertIP hn =>
    obtain ⟨n, e, hn⟩ := newIPNet_of_addr hn
    rw [e]; exact .insertNet hn
  | insertBadIP hn => rw [newIPNet_none hn]; exact .insertNil

/-- The generated IP tree as an implementation of histories.  Chains start from `NewTree()` or from nil; in-place calls on a nil tree panic. -/
def uipImpl (st : Bool) (f : Nat) : OImpl (UD V) (Op V) Ptr where
  fresh := if st then newTreeP none none else pure none
  cow := cowP f
  inp := inpP f
  cowOk _ _ := True
  inpOk _ o := st = true ∧ isIns o
  Obj h r ops F := ∃ t, TRep h r t F ∧ Leaves t ops ∧ (st = true → t.isSome) ∧ UIP.GlueT (base t)

theorem insertNet_isSome {t : Option (Tree V)} (ht : t.isSome) (n : Option IPNet) (v : V) : (UIP.InsertNet t n v).isSome := by
  unfold UIP.InsertNet
  split
  · exact ht
  · simp only
    split
    · rfl
    · split
      · rfl
      · exact ht

omit [Inhabited V] in
theorem deleteByNet_isSome {t : Option (Tree V)} (ht : t.isSome) (n : Option IPNet) : (UIP.DeleteByNet t n).1.isSome := by
  unfold UIP.DeleteByNet
  repeat' split
  all_goals first | rfl | exact ht

theorem step_isSome {t : Option (Tree V)} (ht : t.isSome) (o : Op V) : (UIP.step t o).isSome := by
  cases o with
  | insertNet n v => exact insertNet_isSome ht _ _
  | insertIP ip v => exact insertNet_isSome ht _ _
  | deleteByNet n => exact deleteByNet_isSome ht _
  | deleteByIP ip => exact deleteByNet_isSome ht _

theorem cowP_spec {f : Nat} (hf : 66 ≤ f) {h : Heap (UD V)} {r : Ptr} {t : Option (Tree V)} {F : Addr → Prop} (hT : TRep h r t F) (o : Op V) :
    wp (fun a => h.next ≤ a) (cowP f o r) (fun r' h' => ∃ F', TRep h' r' (UIP.step t o) F' ∧ ∀ x, F' x → h.next ≤ x ∨ F x) h := by
  cases o with
  | insertNet n v => exact InsertNetP_spec hf hT n v
  | insertIP ip v => exact InsertNetP_spec hf hT _ v
  | deleteByNet n =>
    unfold cowP
    rw [wp_bind]
    exact wp_conseq (DeleteByNetP_spec hf hT n) fun _ _ q => q.2
  | deleteByIP ip =>
    unfold cowP
    rw [wp_bind]
    exact wp_conseq (DeleteByNetP_spec hf hT _) fun _ _ q => q.2

theorem uipImpl_lawful (st : Bool) {f : Nat} (hf : 66 ≤ f) (n : Nat) : (uipImpl (V := V) st f).Lawful n where
  fresh_ok h := by
    cases st with
    | false => exact ⟨fun _ => False, ⟨none, ⟨rfl, fun _ => id⟩, leaves_start false, by simp, UIP.glueT_new⟩, fun _ => False.elim⟩
    | true =>
      refine wp_conseq (wp_mk (h0 := h) (F := fun _ => False) (A := .nil) (P := .nil) ⟨trivial, trivial, by simp⟩ ⟨rep6_nil h, by simp [tot]⟩ (Nat.le_refl _) (by simp) (by simp [tot])) ?_
      rintro r h' ⟨F, h1, h2⟩
      exact ⟨F, ⟨_, h1, leaves_start true, fun _ => rfl, UIP.glueT_new⟩, fun x hx => (h2 x hx).resolve_right id⟩
  lt := fun ⟨_, hT, _⟩ ha => hT.lt ha
  frame := fun ⟨t, hT, h1⟩ hn hm => ⟨t, hT.frame hn hm, h1⟩
  cow_ok l o r h F _ _ := fun ⟨t, hT, h1, h2, h3⟩ => by
    refine wp_conseq (cowP_spec hf hT o) ?_
    rintro r' h' ⟨F', q1, q2⟩
    exact ⟨F', ⟨_, q1, leaves_step h1 fun _ => id, fun hst => step_isSome (h2 hst) o, UIP.glueT_step h3 o⟩, q2⟩
  inp_ok l o r h F _ ho := fun ⟨t, hT, h1, h2, h3⟩ => by
    obtain ⟨rfl, ho⟩ := ho
    have := h2 rfl
    cases t with
    | none => simp at this
    | some t =>
      have ⟨a, _, _, hr, _⟩ := hT
      subst hr
      cases o with
      | insertNet n v =>
        simp only [uipImpl, inpP]
        rw [wp_bind]
        refine wp_conseq (InplaceInsertNetP_spec hf hT n v) ?_
        rintro _ h' ⟨n', F', e, q1, q2⟩
        exact ⟨F', ⟨_, q1, leaves_step (o' := .insertNet n' v) h1 fun _ hx => opNet_same e v hx, fun _ => insertNet_isSome rfl _ _, UIP.glueT_insertNet (t := some t) h3 _ _⟩, q2⟩
      | insertIP ip v =>
        simp only [uipImpl, inpP]
        rw [wp_bind]
        refine wp_conseq (InplaceInsertNetP_spec hf hT (newIPNetFromIP ip) v) ?_
        rintro _ h' ⟨n', F', e, q1, q2⟩
        exact ⟨F', ⟨_, q1, leaves_step (o' := .insertNet n' v) h1 fun _ hx => opNet_same e v (opNet_ip hx), fun _ => insertNet_isSome rfl _ _, UIP.glueT_insertNet (t := some t) h3 _ _⟩, q2⟩
      | deleteByNet n => exact ho.elim
      | deleteByIP ip => exact ho.elim

end Verif.UIPHeap
