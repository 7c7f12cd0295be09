import Verif.UIPHeap.Spread
import Verif.UIPHeap.History
import Verif.Heap.Kin

/-! # Histories of the generated IP trees in which trees modified in place share nodes with other trees -/

namespace Verif.UIPHeap
open Verif Verif.Heap Verif.Heap.Prog Verif.Heap.ATree Verif.Num Verif.NumHeap
open Verif.IP (newIPNetFromIP Op OpNet)
open Verif.UIP (Tree base)

variable {V : Type}

/-- Only one object is in memory at a pointer. -/
theorem trep_unique {h : Heap (UD V)} {r : Ptr} {t u : Option (Tree V)} {F E : Addr → Prop} (hT : TRep h r t F) (hU : TRep h r u E) : t = u := by
  cases t with
  | none =>
    cases u with
    | none => rfl
    | some u => obtain ⟨a, _, _, e, _⟩ := hU; rw [hT.1] at e; cases e
  | some t =>
    obtain ⟨a, A, P, rfl, h1, _, h3, h4, rfl, _⟩ := hT
    cases u with
    | none => cases hU.1
    | some u =>
      obtain ⟨a', A', P', e, g1, _, g3, g4, rfl, _⟩ := hU
      cases e
      rw [h1] at g1
      simp only [Option.some.injEq, Cell.mk.injEq, true_and] at g1
      rw [rep_unique h3.1 g3.1 g1.1, rep6_unique h4.1 g4.1 g1.2]

variable [Inhabited V]

/-- In this memory the pointer is a tree the chain of calls makes; `home` tells for which key a node belongs to a nested tree. -/
def KObj (home : Home) (h : Heap (UD V)) (r : Ptr) (l : List (Op V)) (F : Addr → Prop) : Prop :=
  ∃ t, Leaves t l ∧ t.isSome ∧ HRep home h r t ∧ TRep h r t F

omit [Inhabited V] in
theorem KObj.frame {home home' : Home} {h h' : Heap (UD V)} (hk : Kept h h') (he : ∀ x, x < h.next → home' x = home x) {r : Ptr} {l : List (Op V)}
    {F : Addr → Prop} (hT : KObj home h r l F) : KObj home' h' r l F := by
  obtain ⟨t, h1, h0, h2, h3⟩ := hT
  exact ⟨t, h1, h0, h2.frame hk he, h3.frame hk.1 fun a ha => hk.2 a (h3.lt ha)⟩

/-- The in-place insertion of one network, as the histories need it. -/
theorem inplace_kin {f : Nat} (hf : 66 ≤ f) {home : Home} {h : Heap (UD V)} {r : Ptr} {l : List (Op V)} {F : Addr → Prop} (hK : KObj home h r l F)
    (o : Op V) (n : Option IPNet) (v : V) (ho : ∀ x, OpNet o x → OpNet (.insertNet n v) x) :
    wp (fun a => F a ∨ h.next ≤ a) (InplaceInsertNetP f r n v) (fun _ h' => ∃ home' F', KObj home' h' r (o :: l) F' ∧ (∀ x, F' x → h.next ≤ x ∨ F x) ∧
      ∀ q l2 E, KObj home h q l2 E → (∃ l2' E', KObj home' h' q l2' E' ∧ (∀ x, E' x → h.next ≤ x ∨ E x) ∧ (l2' = l2 ∨ l2' = o :: l2)) ∧
        ((∀ x, ¬ (F x ∧ E x)) → KObj home' h' q l2 E)) h := by
  obtain ⟨t, h1, h0, hH, hT⟩ := hK
  cases t with
  | none => simp at h0
  | some t =>
    have ⟨a, _, _, hr, _⟩ := hT
    subst hr
    refine wp_conseq (wp_frame (wp_and (InplaceInsertNetP_spec hf hT n v) (InplaceInsertNetP_spread hf hH n v))) ?_
    rintro _ h' ⟨⟨⟨n', F', e, q1, q2⟩, home', q3, ⟨t', q4, _⟩, q5⟩, q6, q7⟩
    have own : t' = UIP.InsertNet (some t) n' v := by
      obtain ⟨F2, z⟩ := q4.rep
      exact trep_unique z q1
    subst own
    refine ⟨home', F', ⟨_, leaves_step (o' := .insertNet n' v) h1 fun x hx => opNet_same e v (ho x hx), insertNet_isSome rfl _ _, q4, q1⟩, q2, fun q l2 E ⟨t2, z1, z0, z2, z3⟩ => ?_⟩
    obtain ⟨t2', E', y1, y2, y3, y4⟩ := q5 q t2 E z2 z3
    refine ⟨?_, fun hd => ?_⟩
    · rcases y4 with rfl | ⟨n2, e2, rfl⟩
      · exact ⟨l2, E', ⟨_, z1, z0, y1, y2⟩, y3, .inl rfl⟩
      · exact ⟨o :: l2, E', ⟨_, leaves_step (o' := .insertNet n2 v) z1 fun x hx => opNet_same e2 v (ho x hx), insertNet_isSome z0 _ _, y1, y2⟩, y3, .inr rfl⟩
    · have fr : TRep h' q t2 E := z3.frame q6 fun x hx => q7 x (z3.lt hx) (by
        rintro (k | k)
        · exact hd x ⟨k, hx⟩
        · have := z3.lt hx; omega)
      have := trep_unique y2 fr
      subst this
      exact ⟨_, z1, z0, y1, fr⟩

theorem uipImpl_kin {f : Nat} (hf : 66 ≤ f) : (uipImpl (V := V) true f).Kin KObj where
  fresh_ok home h := by
    have h1 : wp (fun a => h.next ≤ a) (newTreeP none none : Prog (UD V) Ptr) _ h :=
      wp_mk (h0 := h) (F := fun _ => False) (A := .nil) (P := .nil) ⟨trivial, trivial, by simp⟩ ⟨rep6_nil h, by simp [tot]⟩ (Nat.le_refl _) (by simp) (by simp [tot])
    have h2 : wp (fun a => h.next ≤ a) (newTreeP none none : Prog (UD V) Ptr) _ h :=
      wp_mkH (home := home) (A := .nil) (P := .nil) ⟨trivial, trivial, by simp⟩ ⟨rep6_nil h, by simp [tot], by simp [Homed, nodes]⟩
    refine wp_conseq (wp_frame (wp_and h1 h2)) ?_
    rintro r h' ⟨⟨⟨F, q1, q2⟩, q3⟩, q4, q5⟩
    exact ⟨home, F, ⟨_, leaves_start true, rfl, q3, q1⟩, fun x hx => (q2 x hx).resolve_right id, fun q l E hq => hq.frame ⟨q4, fun a ha => q5 a ha (by omega)⟩ fun _ _ => rfl⟩
  lt := fun ⟨_, _, _, _, hT⟩ ha => hT.lt ha
  cow_ok l o r home h F _ := fun ⟨t, h1, h0, hH, hT⟩ => by
    have key : wp (fun a => h.next ≤ a) (cowP f o r) (fun r' h' => ∃ home', (∀ x, x < h.next → home' x = home x) ∧ HRep home' h' r' (UIP.step t o)) h := by
      cases o with
      | insertNet n v => exact InsertNetP_homes hf hH n v
      | insertIP ip v => exact InsertNetP_homes hf hH _ v
      | deleteByNet n =>
        unfold cowP
        rw [wp_bind]
        exact wp_conseq (DeleteByNetP_homes hf hH n) fun _ _ q => q.2
      | deleteByIP ip =>
        unfold cowP
        rw [wp_bind]
        exact wp_conseq (DeleteByNetP_homes hf hH _) fun _ _ q => q.2
    refine wp_conseq (wp_frame (wp_and (cowP_spec hf hT o) key)) ?_
    rintro r' h' ⟨⟨⟨F', q1, q2⟩, home', q3, q4⟩, q5, q6⟩
    exact ⟨home', F', ⟨_, leaves_step h1 fun _ => id, step_isSome h0 o, q4, q1⟩, q2, fun q l E hq => hq.frame ⟨q5, fun a ha => q6 a ha (by omega)⟩ q3⟩
  inp_ok l o r home h F ho := fun hK => by
    cases o with
    | insertNet n v =>
      simp only [uipImpl, inpP]
      rw [wp_bind]
      exact inplace_kin hf hK (.insertNet n v) n v fun _ => id
    | insertIP ip v =>
      simp only [uipImpl, inpP]
      rw [wp_bind]
      exact inplace_kin hf hK (.insertIP ip v) (newIPNetFromIP ip) v fun _ => opNet_ip
    | deleteByNet n => exact ho.2.elim
    | deleteByIP ip => exact ho.2.elim

end Verif.UIPHeap
