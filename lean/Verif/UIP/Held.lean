import Verif.UIP.History
import Verif.Num.Held

/-! # The generated IP trees: nodes and values against the networks listed -/

namespace Verif.UIP
open Verif Verif.Num
open Verif.IP (Op)
variable {V : Type} [Inhabited V]

/-- No node without data has a value, in nested trees either. -/
structure GlueT (t : Tree V) : Prop where
  v4 : Glue t.root32
  v6 : Glue t.root64
  sub : ∀ s ∈ vals t.root64, Glue s

theorem glueT_new : GlueT (⟨.nil, .nil⟩ : Tree V) := ⟨glue_nil, glue_nil, by simp [vals]⟩

theorem glueT_insert64 {t : Tree V} (h : GlueT t) (k : BitVec 64) (b : Int) {x : NTree 64 V} (hx : Glue x) :
    GlueT ⟨t.root32, Insert t.root64 k b x⟩ where
  v4 := h.v4
  v6 := glue_insert h.v6 rfl
  sub s hs := by
    rcases vals_insert _ _ _ hs with e | e | e
    · rw [e]; exact hx
    · rw [e]; exact glue_nil
    · exact h.sub s e

theorem glueT_delete64 {t : Tree V} (h : GlueT t) (k : BitVec 64) (b : Int) : GlueT ⟨t.root32, (Delete t.root64 k b).1⟩ where
  v4 := h.v4
  v6 := glue_del h.v6 _ _
  sub s hs := h.sub s (vals_del _ _ _ _ hs)

theorem glueT_insertNet {t : Option (Tree V)} (h : GlueT (base t)) (n : Option IPNet) (v : V) : GlueT (base (InsertNet t n v)) := by
  unfold InsertNet
  split
  · exact h
  · simp only
    split
    · exact ⟨glue_insert h.v4 rfl, h.v6, h.sub⟩
    · split
      · rename_i k _
        refine glueT_insert64 h _ _ (glue_insert ?_ rfl)
        have h : GlueT (t.getD ⟨.nil, .nil⟩) := h
        cases e : ExactMatch (t.getD ⟨.nil, .nil⟩).root64 k.msKey k.msBits with
        | none => exact glue_nil
        | some s => exact h.sub s (vals_ExactMatch e)
      · exact h

theorem glueT_deleteByNet {t : Option (Tree V)} (h : GlueT (base t)) (n : Option IPNet) : GlueT (base (DeleteByNet t n).1) := by
  unfold DeleteByNet
  split
  · rename_i t n
    have h : GlueT t := h
    split
    · rename_i key bits _
      have h1 : Glue (Delete t.root32 key bits).1 := glue_del h.v4 _ _
      split
      · rename_i e; rw [e] at h1; exact ⟨h1, h.v6, h.sub⟩
      · exact h
    · split
      · rename_i k _
        split
        · exact h
        · rename_i v hv
          have h1 : Glue (Delete v k.lsKey k.lsBits).1 := glue_del (h.sub v (vals_ExactMatch hv)) _ _
          split
          · rename_i r e
            rw [e] at h1
            split
            · exact glueT_delete64 h _ _
            · exact glueT_insert64 h _ _ h1
          · exact h
      · exact h
  · exact h

theorem glueT_step {t : Option (Tree V)} (h : GlueT (base t)) (op : Op V) : GlueT (base (step t op)) := by
  cases op with
  | insertNet n v => exact glueT_insertNet h n v
  | insertIP ip v => exact glueT_insertNet h _ v
  | deleteByNet n => exact glueT_deleteByNet h n
  | deleteByIP ip => exact glueT_deleteByNet h _

omit [Inhabited V] in
theorem enumerate_length (t : Tree V) : (Enumerate (some t)).length =
    (Num.enumerate t.root32).length + ((Num.enumerate t.root64).map fun n => (Num.enumerate n.value).length).sum := by
  have e4 : (Num.Enumerate t.root32) = Num.enumerate t.root32 := rfl
  have e6 : (Num.Enumerate t.root64) = Num.enumerate t.root64 := rfl
  simp only [Enumerate, e4, e6, List.length_append, List.length_map, List.length_flatMap]
  congr 2
  apply List.map_congr_left
  intro n _
  simp [enum6]; rfl

/-- All nodes of the tree. -/
theorem count_le {t : Tree V} (h : WFT t) (hg : GlueT t) :
    t.root32.size + (t.root64.size + sumV BTree.size t.root64) ≤ 3 * (Enumerate (some t)).length := by
  rw [enumerate_length]
  have h6 := nested_count h.v6.1 BTree.size (fun s => (Num.enumerate s).length) (fun n hn hl => by rw [hg.v6 n hn hl]; rfl) (fun n hn => by
    obtain ⟨ht, _⟩ := typed_of_mem h.v6 hn
    exact ht.2.1.size_lt ht.1)
  have h4 : t.root32.size ≤ 3 * (Num.enumerate t.root32).length := by
    by_cases hn : t.root32 = .nil
    · rw [hn]; simp
    · have := h.v4.size_lt hn; omega
  omega

end Verif.UIP
