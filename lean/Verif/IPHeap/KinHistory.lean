import Verif.IPHeap.Spread
import Verif.Heap.Kin

/-! # Histories of iptree in which trees modified in place share nodes with other trees -/

namespace Verif.IPHeap
open Verif Verif.Heap Verif.Heap.Prog Verif.Heap.ATree Verif.Num Verif.NumHeap Verif.IP

variable {V : Type}

/-- Only one object is in memory at a pointer. -/
theorem trep_unique {h : Heap (IPD V)} {r : Ptr} {t u : Option (Tree V)} {F E : Addr → Prop} (hT : TRep h r t F) (hU : TRep h r u E) : t = u := by
  cases t with
  | none =>
    cases u with
    | none => rfl
    | some u => obtain ⟨a, _, _, e, _⟩ := hU; rw [hT.1] at e; cases e
  | some t =>
    obtain ⟨a, A, P, rfl, h1, _, h3, h4, rfl, _⟩ := hT
    cases u with
    | none => cases hU.1
    | some u =>
      obtain ⟨a', A', P', e, g1, _, g3, g4, rfl, _⟩ := hU
      cases e
      rw [h1] at g1
      simp only [Option.some.injEq, Cell.mk.injEq, true_and] at g1
      rw [rep_unique h3.1 g3.1 g1.1, rep6_unique h4.1 g4.1 g1.2]

variable [Inhabited V]

/-- In this memory the pointer is the tree the chain of calls makes; `home` tells for which key a node belongs to a nested tree. -/
def KObj (home : Addr → Option (BitVec 64)) (h : Heap (IPD V)) (r : Ptr) (l : List (Op V)) (F : Addr → Prop) : Prop :=
  ∃ t, IP.run (start0 true) l = some t ∧ HRep home h r t ∧ TRep h r t F

theorem KObj.frame {home home' : Addr → Option (BitVec 64)} {h h' : Heap (IPD V)} (hk : Kept h h') (he : ∀ x, x < h.next → home' x = home x) {r : Ptr} {l : List (Op V)}
    {F : Addr → Prop} (hT : KObj home h r l F) : KObj home' h' r l F := by
  obtain ⟨t, h1, h2, h3⟩ := hT
  exact ⟨t, h1, h2.frame hk he, h3.frame hk.1 fun a ha => hk.2 a (h3.lt ha)⟩

theorem ipImpl_kin {f : Nat} (hf : 66 ≤ f) : (ipImpl (V := V) true f).Kin KObj where
  fresh_ok home h := by
    have h1 : wp (fun a => h.next ≤ a) (newTreeP none none : Prog (IPD V) Ptr) _ h :=
      wp_mk (h0 := h) (F := fun _ => False) (A := .nil) (P := .nil) ⟨trivial, trivial, by simp⟩ ⟨rep6_nil h, by simp [tot]⟩ (Nat.le_refl _) (by simp) (by simp [tot])
    have h2 : wp (fun a => h.next ≤ a) (newTreeP none none : Prog (IPD V) Ptr) _ h :=
      wp_mkH (home := home) (A := .nil) (P := .nil) ⟨trivial, trivial, by simp⟩ ⟨rep6_nil h, by simp [tot], by simp [Homed, nodes]⟩
    refine wp_conseq (wp_frame (wp_and h1 h2)) ?_
    rintro r h' ⟨⟨⟨F, q1, q2⟩, q3⟩, q4, q5⟩
    exact ⟨home, F, ⟨_, rfl, q3, q1⟩, fun x hx => (q2 x hx).resolve_right id, fun q l E hq => hq.frame ⟨q4, fun a ha => q5 a ha (by omega)⟩ fun _ _ => rfl⟩
  lt := fun ⟨_, _, _, hT⟩ ha => hT.lt ha
  cow_ok l o r home h F _ := fun ⟨t, h1, hH, hT⟩ => by
    obtain ⟨t', h2⟩ := run_total (V := V) true (o :: l)
    have h3 : IP.step t o = some t' := by simpa [IP.run, h1] using h2
    have key : wp (fun a => h.next ≤ a) (cowP f o r) (fun r' h' => (∃ F', TRep h' r' t' F' ∧ ∀ x, F' x → h.next ≤ x ∨ F x) ∧
        ∃ home', (∀ x, x < h.next → home' x = home x) ∧ HRep home' h' r' t') h := by
      cases o with
      | insertNet n v => exact wp_and (InsertNetP_spec hf hT h3) (InsertNetP_homes hf hH h3)
      | insertIP ip v => exact wp_and (InsertNetP_spec hf hT h3) (InsertNetP_homes hf hH h3)
      | deleteByNet n =>
        simp only [IP.step, Option.map_eq_some_iff] at h3
        obtain ⟨⟨t1, b⟩, h3, rfl⟩ := h3
        unfold cowP
        rw [wp_bind]
        exact wp_conseq (wp_and (DeleteByNetP_spec hf hT h3) (DeleteByNetP_homes hf hH h3)) fun _ _ q => ⟨q.1.2, q.2.2⟩
      | deleteByIP ip =>
        simp only [IP.step, Option.map_eq_some_iff] at h3
        obtain ⟨⟨t1, b⟩, h3, rfl⟩ := h3
        unfold cowP
        rw [wp_bind]
        exact wp_conseq (wp_and (DeleteByNetP_spec hf hT h3) (DeleteByNetP_homes hf hH h3)) fun _ _ q => ⟨q.1.2, q.2.2⟩
    refine wp_conseq (wp_frame key) ?_
    rintro r' h' ⟨⟨⟨F', q1, q2⟩, home', q3, q4⟩, q5, q6⟩
    exact ⟨home', F', ⟨t', h2, q4, q1⟩, q2, fun q l E hq => hq.frame ⟨q5, fun a ha => q6 a ha (by omega)⟩ q3⟩
  inp_ok l o r home h F ho := fun ⟨t, h1, hH, hT⟩ => by
    obtain ⟨_, ho⟩ := ho
    obtain ⟨t', h2⟩ := run_total (V := V) true (o :: l)
    have h3 : IP.step t o = some t' := by simpa [IP.run, h1] using h2
    have := run_isSome h1
    cases t with
    | none => simp at this
    | some t =>
      have ⟨a, _, _, hr, _⟩ := hT
      subst hr
      have key : wp (fun x => F x ∨ h.next ≤ x) (inpP f o (some a)) (fun r' h' => (∃ F', TRep h' r' t' F' ∧ ∀ x, F' x → h.next ≤ x ∨ F x) ∧
          ∃ home', (∀ x, x < h.next → home' x = home x) ∧ HRep home' h' r' t' ∧
            ∀ r2 t2 F2, HRep home h r2 t2 → TRep h r2 t2 F2 → ∃ t2' F2', HRep home' h' r2 t2' ∧ TRep h' r2 t2' F2' ∧ (∀ x, F2' x → h.next ≤ x ∨ F2 x) ∧
              (t2' = t2 ∨ IP.step t2 o = some t2')) h := by
        cases o with
        | insertNet n v =>
          unfold inpP
          rw [wp_bind]
          exact wp_and (InplaceInsertNetP_spec hf hT h3) (InplaceInsertNetP_spread hf hH h3)
        | insertIP ip v =>
          unfold inpP
          rw [wp_bind]
          exact wp_and (InplaceInsertNetP_spec hf hT h3) (InplaceInsertNetP_spread hf hH h3)
        | deleteByNet n => exact ho.elim
        | deleteByIP ip => exact ho.elim
      refine wp_conseq (wp_frame key) ?_
      rintro r' h' ⟨⟨⟨F', q1, q2⟩, home', q3, q4, q5⟩, q6, q7⟩
      refine ⟨home', F', ⟨t', h2, q4, q1⟩, q2, fun q l2 E ⟨t2, z1, z2, z3⟩ => ?_⟩
      obtain ⟨t2', E', y1, y2, y3, y4⟩ := q5 q t2 E z2 z3
      refine ⟨?_, fun hd => ?_⟩
      · rcases y4 with rfl | y4
        · exact ⟨l2, E', ⟨_, z1, y1, y2⟩, y3, .inl rfl⟩
        · exact ⟨o :: l2, E', ⟨_, by simp [IP.run, z1, y4], y1, y2⟩, y3, .inr rfl⟩
      · have fr : TRep h' q t2 E := z3.frame q6 fun x hx => q7 x (z3.lt hx) (by
          rintro (k | k)
          · exact hd x ⟨k, hx⟩
          · have := z3.lt hx; omega)
        have := trep_unique y2 fr
        subst this
        exact ⟨_, z1, y1, fr⟩

end Verif.IPHeap
