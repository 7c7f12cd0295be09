import Verif.NumHeap.Shared
import Verif.Heap.ToObj
import Verif.Heap.Kin

/-! # Histories of numtree in which trees modified in place share nodes with other trees, with their origins -/

namespace Verif.NumHeap
open Verif Verif.Heap Verif.Heap.Prog Verif.Heap.ATree Verif.Num

variable {w : Nat} {V : Type} [LawfulKeySize w] [Inhabited V]

theorem numImpl_kin {f : Nat} (hf : w + 2 ≤ f) : (numImpl f w V).toO.Kin (fun (_ : Unit) => (numImpl f w V).toO.Obj) where
  fresh_ok _ h := ⟨(), _, ⟨.nil, rfl, trivial, (numImpl_lawful hf 0).run_nil.symm, by simp, rfl⟩, by simp, fun _ _ _ => id⟩
  lt := (Impl.toO_lawful (numImpl_lawful hf 0)).lt
  cow_ok l o r _ h F ho hT := by
    have hL := Impl.toO_lawful (numImpl_lawful (V := V) hf (l.length + 1))
    refine wp_conseq (wp_frame (hL.cow_ok l o r h F (by omega) ho hT)) ?_
    rintro r' h' ⟨⟨F', q1, q2⟩, q3, q4⟩
    exact ⟨(), F', q1, q2, fun q l E hq => hL.frame hq q3 fun a ha => q4 a (hL.lt hq ha) (by have := hL.lt hq ha; omega)⟩
  inp_ok l o r _ h F ho hT := by
    have hL := Impl.toO_lawful (numImpl_lawful (V := V) hf (l.length + 1))
    have hT0 := hT
    obtain ⟨A, rfl, hA, hE, hN, rfl⟩ := hT
    cases o with
    | delete k b => exact ho.elim
    | insert k b v =>
      have hh : A.height < f := by
        have := run_height (w := w) (V := V) l
        have e := erase_height A
        rw [hE] at e
        have : (Num.run l).height = A.height := e
        omega
      have hw := inplaceLoop_change f k (clamp w b) v A A hh (ptr A) none false h hA hN (fun _ => Nat.le_refl _) (.inl rfl)
      have h1 := hL.inp_ok l (.insert k b v) (ptr A) h _ (by omega) ho hT0
      refine wp_mono (W := fun a => 1 ≤ cnt a A ∨ h.next ≤ a) (fun _ => id) ?_ (wp_frame (wp_and h1 hw))
      rintro r' h' ⟨⟨⟨F', q1, q2⟩, q3, _⟩, q4, q5⟩
      refine ⟨(), F', q1, q2, fun q l2 E hq => ⟨?_, fun hd => hL.frame hq q4 fun a ha => q5 a (hL.lt hq ha) ?_⟩⟩
      · obtain ⟨B, rfl, hB, hEB, hNB, rfl⟩ := hq
        have hEB : erase B = Num.run l2 := hEB
        obtain ⟨B', b1, b2, b3, b4⟩ := change_other (clamp_le b) q4 q3 B hB (hEB ▸ (run_wf l2).1) hNB
        have one : ∀ x, cnt x B' ≤ 1 := fun x => by have := b3 x; have := hNB x; grind
        have foot : ∀ x, 1 ≤ cnt x B' → h.next ≤ x ∨ 1 ≤ cnt x B := fun x hx => by have := b3 x; grind
        rcases b4 with b4 | b4
        · exact ⟨l2, _, ⟨B', b1.symm, b2, b4.trans hEB, one, rfl⟩, foot, .inl rfl⟩
        · exact ⟨_, _, ⟨B', b1.symm, b2, by rw [b4, hEB]; rfl, one, rfl⟩, foot, .inr rfl⟩
      · rintro (k | k)
        · exact hd a ⟨k, ha⟩
        · have := hL.lt hq ha; omega

end Verif.NumHeap
