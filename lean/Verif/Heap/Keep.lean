import Verif.Heap.Session

/-! # Copy-on-write histories leave every cell as it is -/

namespace Verif.Heap
open Prog
variable {D O R : Type} {I : OImpl D O R} {n : Nat}

theorem oexec_keep (hI : I.Lawful n) {n0 base m : Nat} {s s' : OStore D R} {b : Book O} (h : OInv I n0 base m s b) {ops : List (SOp O)} (hm : m + ops.length ≤ n)
    (hc : CowOnly ops) (hl : b.LegalAll2 I.cowOk I.inpOk ops) (he : s.exec I ops = .ok s') :
    s.heap.next ≤ s'.heap.next ∧ ∀ a, a < base → s'.heap.mem a = s.heap.mem a := by
  induction ops generalizing s b m with
  | nil => cases he; exact ⟨Nat.le_refl _, fun _ _ => rfl⟩
  | cons op ops ih =>
    simp only [List.length_cons] at hm
    have hb : base ≤ s.heap.next := by obtain ⟨_, ⟨h1, _⟩, _⟩ := h; exact h1
    have ho : OwnInp n0 b op := by
      cases op with
      | inp i o => exact hc.elim
      | _ => trivial
    have hc' : CowOnly ops := by
      cases op with
      | inp i o => exact hc.elim
      | drop i => exact hc.elim
      | fresh => exact hc
      | cow i o => exact hc
    obtain ⟨s1, e1, i1, w⟩ := ostep_inv hI (by omega) h op hl.1 ho
    simp only [OStore.exec, e1] at he
    obtain ⟨q1, q2⟩ := ih i1 (by omega) hc' hl.2 he
    obtain ⟨x, h', r1, _, r2, r3⟩ := wp_run w
    rw [stepP_run, e1] at r1
    cases r1
    exact ⟨Nat.le_trans r2 q1, fun a ha => (q2 a ha).trans (r3 a (by omega) (by omega))⟩

/-- Whatever is derived later without in-place calls, every cell there was keeps its content, and the roots held are what they were. -/
theorem obj_keep (hI : I.Lawful n) (pre post : List (SOp O)) (hn : pre.length + post.length ≤ n) (hc : CowOnly post)
    (hl : (Book.init : Book O).LegalAll2 I.cowOk I.inpOk pre) (hl2 : (Book.init.exec pre).LegalAll2 I.cowOk I.inpOk post) :
    ∃ s s', OStore.init.exec I pre = .ok s ∧ s.exec I post = .ok s' ∧ s.heap.next ≤ s'.heap.next ∧ (∀ a, a < s.heap.next → s'.heap.mem a = s.heap.mem a) ∧
      ∀ (i : Nat) r, s.roots[i]? = some r → s'.roots[i]? = some r ∧ ∃ l F, I.Obj s.heap r l F ∧ l.length ≤ n := by
  obtain ⟨s, e1, i1⟩ := oexec_inv hI (oinv_init I) pre (by omega) hl
  obtain ⟨s', e2, i2⟩ := oexec_inv hI i1 post (by omega) hl2
  obtain ⟨k1, k2⟩ := oexec_keep hI i1.rebase (by omega) hc hl2 e2
  obtain ⟨T, _, _, a1, a2, a3, _⟩ := i1
  refine ⟨s, s', e1, e2, k1, k2, fun i r hr => ⟨ostore_cowOnly hc e2 hr, ?_⟩⟩
  rw [a1, List.getElem?_map] at hr
  cases hT : T[i]? with
  | none => simp [hT] at hr
  | some t =>
    simp only [hT, Option.map_some, Option.some.injEq] at hr
    subst hr
    obtain ⟨q1, _, q2⟩ := a3 t (List.mem_of_getElem? hT)
    exact ⟨_, _, q1, by omega⟩

end Verif.Heap
