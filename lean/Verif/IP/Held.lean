import Verif.IP.History
import Verif.Num.Held

/-! # iptree: nodes and values against the networks listed -/

namespace Verif.IP
open Verif Verif.Num
variable {V : Type}

/-- Nodes of a nested tree. -/
def subSize : TV V → Nat
  | .user _ => 0
  | .sub s => s.size

/-- Networks listed for a value. -/
def subCount : TV V → Nat
  | .user _ => 1
  | .sub s => (Num.Enumerate s).length

/-- No node without data has a value, in nested trees either. -/
structure GlueT [Inhabited V] (t : Tree V) : Prop where
  v4 : Glue t.root32
  v6 : Glue t.root64
  sub : ∀ s, .sub s ∈ vals t.root64 → Glue s

variable [Inhabited V]

theorem glueT_new : GlueT (⟨.nil, .nil⟩ : Tree V) := ⟨glue_nil, glue_nil, by simp [vals]⟩

theorem glueT_insert64 {t : Tree V} (h : GlueT t) (k : BitVec 64) (b : Int) {x : TV V} (hx : ∀ s, x = .sub s → Glue s) :
    GlueT ⟨t.root32, Insert t.root64 k b x⟩ where
  v4 := h.v4
  v6 := glue_insert h.v6 rfl
  sub s hs := by
    rcases vals_insert _ _ _ hs with e | e | e
    · exact hx s e.symm
    · exact nomatch e
    · exact h.sub s e

theorem glueT_delete64 {t : Tree V} (h : GlueT t) (k : BitVec 64) (b : Int) : GlueT ⟨t.root32, (Delete t.root64 k b).1⟩ where
  v4 := h.v4
  v6 := glue_del h.v6 _ _
  sub s hs := h.sub s (vals_del _ _ _ _ hs)

theorem glueT_insertNet {t t' : Option (Tree V)} (h : GlueT (base t)) {n : Option IPNet} {v : V} (hi : InsertNet t n v = some t') : GlueT (base t') := by
  unfold InsertNet at hi
  split at hi
  · cases hi; exact h
  · rename_i n
    simp only at hi
    split at hi
    · cases hi; exact ⟨glue_insert h.v4 rfl, h.v6, h.sub⟩
    · split at hi
      · rename_i k _
        split at hi
        · cases hi; exact glueT_insert64 h _ _ (fun s e => nomatch e)
        · rw [Option.map_eq_some_iff] at hi
          obtain ⟨s, hs, hi⟩ := hi
          cases hi
          refine glueT_insert64 h _ _ ?_
          rintro _ ⟨⟩
          refine glue_insert ?_ rfl
          unfold subOf at hs
          split at hs
          · cases hs; exact glue_nil
          · rename_i e; cases hs; exact h.sub _ (vals_ExactMatch e)
          · cases hs
      · cases hi; exact h

theorem glueT_deleteByNet {t t' : Option (Tree V)} {b : Bool} (h : GlueT (base t)) {n : Option IPNet} (hi : DeleteByNet t n = some (t', b)) : GlueT (base t') := by
  unfold DeleteByNet at hi
  split at hi
  · rename_i t n
    have h : GlueT t := h
    split at hi
    · rename_i key bits _
      have h1 : Glue (Delete t.root32 key bits).1 := glue_del h.v4 _ _
      split at hi
      · rename_i e; rw [e] at h1; cases hi; exact ⟨h1, h.v6, h.sub⟩
      · cases hi; exact h
    · split at hi
      · rename_i k _
        split at hi
        · have h1 := glueT_delete64 h k.msKey k.msBits
          split at hi
          · rename_i e; rw [e] at h1; cases hi; exact h1
          · cases hi; exact h
        · split at hi
          · cases hi; exact h
          · rename_i v hv
            rw [Option.map_eq_some_iff] at hi
            obtain ⟨s, hs, hi⟩ := hi
            have hg : Glue s := by
              unfold subOf at hs
              split at hs
              · cases hs; exact glue_nil
              · rename_i e; cases e; cases hs; exact h.sub _ (vals_ExactMatch hv)
              · cases hs
            have h1 : Glue (Delete s k.lsKey k.lsBits).1 := glue_del hg _ _
            split at hi
            · rename_i r e
              rw [e] at h1
              split at hi
              · cases hi; exact glueT_delete64 h _ _
              · cases hi
                refine glueT_insert64 h _ _ ?_
                rintro _ ⟨⟩; exact h1
            · cases hi; exact h
      · cases hi; exact h
  · cases hi; exact h

theorem run_glue {t0 t : Option (Tree V)} (h0 : EmptyT t0) (ops : List (Op V)) (h : run t0 ops = some t) : GlueT (base t) := by
  induction ops generalizing t with
  | nil =>
    cases h
    rcases h0 with rfl | rfl <;> exact glueT_new
  | cons op ops ih =>
    simp only [run, Option.bind_eq_some_iff] at h
    obtain ⟨u, hu, h⟩ := h
    have hg := ih hu
    cases op with
    | insertNet n v => exact glueT_insertNet hg h
    | insertIP ip v => exact glueT_insertNet hg h
    | deleteByNet n =>
      simp only [step, Option.map_eq_some_iff] at h
      obtain ⟨⟨_, b⟩, h, rfl⟩ := h
      exact glueT_deleteByNet hg h
    | deleteByIP ip =>
      simp only [step, Option.map_eq_some_iff] at h
      obtain ⟨⟨_, b⟩, h, rfl⟩ := h
      exact glueT_deleteByNet hg h

omit [Inhabited V] in
theorem enumerate_length (t : Tree V) : (Enumerate (some t)).length =
    (Num.enumerate t.root32).length + ((Num.enumerate t.root64).map fun n => subCount n.value).sum := by
  have e4 : (Num.Enumerate t.root32) = Num.enumerate t.root32 := rfl
  have e6 : (Num.Enumerate t.root64) = Num.enumerate t.root64 := rfl
  simp only [Enumerate, e4, e6, List.length_append, List.length_map, List.length_flatMap]
  congr 2
  apply List.map_congr_left
  intro n _
  unfold enum6 subCount
  cases n.value <;> simp

/-- All nodes of the tree. -/
theorem count_le {t : Tree V} (h : WFT t) (hg : GlueT t) :
    t.root32.size + (t.root64.size + sumV subSize t.root64) ≤ 3 * (Enumerate (some t)).length := by
  rw [enumerate_length]
  have h6 := nested_count h.v6.1 subSize subCount (fun n hn hl => by rw [hg.v6 n hn hl]; rfl) (fun n hn => by
    obtain ⟨ht, _⟩ := typed_of_mem h.v6 hn
    rcases ht with ⟨_, u, e⟩ | ⟨_, s, e, hne, hs⟩
    · rw [e]; simp [subSize, subCount]
    · rw [e]; exact hs.size_lt hne)
  have h4 : t.root32.size ≤ 3 * (Num.enumerate t.root32).length := by
    by_cases hn : t.root32 = .nil
    · rw [hn]; simp
    · have := h.v4.size_lt hn; omega
  omega

end Verif.IP
