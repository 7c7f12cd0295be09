import Verif.UIPHeap.History
import Verif.IPHeap.Held
import Verif.UIP.Held

/-! # What a uintX iptree keeps alive -/

namespace Verif.UIPHeap
open Verif Verif.Heap Verif.Heap.ATree Verif.Num Verif.NumHeap Verif.UIP
open Verif.IPHeap (toPre_mapT size_mapT sumV_mapT addrs_mapA flatMap_length)

variable {V : Type}

/-- The pointers inside a payload: a nested tree. -/
def outs : UD V → List Ptr
  | .n64s d => [d.value]
  | _ => []

/-- The user value inside a payload. -/
def stored : UD V → Option V
  | .n32 d => some d.value
  | .n64 d => some d.value
  | .n64s _ => none
  | .tree => none

variable [Inhabited V]

theorem keeps_of_rep {h : Heap (UD V)} {r : Ptr} {t : Option (Tree V)} {F : Addr → Prop} (hT : TRep h r t F) (hw : WFT (base t)) (hg : GlueT (base t)) :
    Keeps h outs r (1 + 3 * (UIP.Enumerate t).length) fun d => ∀ v, stored d = some v → v = default ∨ ∃ k, (k, v) ∈ UIP.Enumerate t := by
  cases t with
  | none =>
    obtain ⟨rfl, _⟩ := hT
    exact ⟨[], by simp, fun a ha => (held_none ha).elim⟩
  | some t =>
    obtain ⟨a, A, P, rfl, ha, _, ⟨hA, _, _⟩, ⟨hP, _⟩, rfl, _⟩ := hT
    have hw : WFT ⟨erase A, mapT erase (erase P)⟩ := hw
    have hg : GlueT ⟨erase A, mapT erase (erase P)⟩ := hg
    refine ⟨a :: (addrs A ++ (addrs P ++ (vals (erase P)).flatMap addrs)), ?_, fun x hx => ?_⟩
    · have h1 := count_le hw hg
      have h2 := flatMap_length addrs (fun v => BTree.size (erase v)) (fun v => addrs_length v) (erase P)
      simp only [size_mapT, sumV_mapT] at h1
      simp only [List.length_cons, List.length_append, addrs_length, h2]
      omega
    · have l4 : ∀ n ∈ Num.enumerate (erase A), (IP.key4 n, n.value) ∈ UIP.Enumerate (some ⟨erase A, mapT erase (erase P)⟩) := by
        intro n hn
        simp only [UIP.Enumerate, List.mem_append, List.mem_map]
        exact .inl ⟨n, hn, rfl⟩
      have l6 : ∀ n ∈ Num.enumerate (mapT erase (erase P)), ∀ x ∈ enum6 n, x ∈ UIP.Enumerate (some ⟨erase A, mapT erase (erase P)⟩) := by
        intro n hn x hx
        simp only [UIP.Enumerate, List.mem_append, List.mem_flatMap]
        exact .inr ⟨n, hn, hx⟩
      rcases held_some ha hx with rfl | ⟨i, hi⟩ | ⟨q, hq, _⟩
      · refine ⟨by simp, fun c hc v hv => ?_⟩
        rw [ha] at hc; cases hc; cases hv
      · cases i
        · have hi : Held h outs (ptr A) x := hi
          rcases held_tree hA hi with ⟨h1, d, h2, h3⟩ | ⟨d, _, q, hq, _⟩
          · refine ⟨by simp [h1], fun c hc v hv => ?_⟩
            rw [h3 c hc] at hv
            have hv : d.value = v := by simpa [k32, stored] using hv
            subst hv
            cases hl : d.leaf
            · exact .inl (hg.v4 d h2 hl)
            · exact .inr ⟨_, l4 d (enumerate_of_leaf h2 hl)⟩
          · simp [k32, outs] at hq
        · have hi : Held h outs (ptr (mapA ptr P)) x := by rw [ptr_mapA]; exact hi
          rcases held_tree hP.rep hi with ⟨h1, d, h2, h3⟩ | ⟨d, h2, q, hq, hq'⟩
          · rw [addrs_mapA] at h1
            refine ⟨by simp [h1], fun c hc v hv => ?_⟩
            rw [h3 c hc] at hv
            simp [k64s, stored] at hv
          · rw [erase_mapA, toPre_mapT, List.mem_map] at h2
            obtain ⟨n, hn, rfl⟩ := h2
            simp [k64s, outs, ND.mapV] at hq
            subst hq
            have hv : n.value ∈ vals (erase P) := by
              rw [vals_toPre, List.mem_map]; exact ⟨n, hn, rfl⟩
            have hB : Sub h n.value := hP.sub _ hv
            have hnl : n.leaf = true ∨ n.value = .nil := by
              cases hl : n.leaf
              · have := hg.v6 (n.mapV erase) (by rw [toPre_mapT]; exact List.mem_map_of_mem hn) hl
                have this : erase n.value = .nil := this
                cases e : n.value with
                | nil => exact .inr rfl
                | node d l r => rw [e] at this; cases this
              · exact .inl rfl
            rcases hnl with hl | hnil
            · rcases held_tree hB.1 hq' with ⟨h1, m, h2, h3⟩ | ⟨d, h2, q, hq, _⟩
              · refine ⟨?_, fun c hc v hv' => ?_⟩
                · simp only [List.mem_cons, List.mem_append, List.mem_flatMap]
                  exact .inr (.inr (.inr ⟨_, hv, h1⟩))
                · rw [h3 c hc] at hv'
                  have hv' : m.value = v := by simpa [k64, stored] using hv'
                  subst hv'
                  cases hml : m.leaf
                  · refine .inl (hg.sub (erase n.value) ?_ m h2 hml)
                    show erase n.value ∈ vals (mapT erase (erase P))
                    rw [vals_toPre, toPre_mapT, List.mem_map]
                    exact ⟨_, List.mem_map_of_mem hn, rfl⟩
                  · refine .inr ⟨key6 (n.mapV erase) m, l6 _ (enumerate_of_leaf (by rw [toPre_mapT]; exact List.mem_map_of_mem hn) hl) _ ?_⟩
                    simp only [enum6, List.mem_map]
                    exact ⟨m, enumerate_of_leaf h2 hml, rfl⟩
              · simp [k64, outs] at hq
            · rw [hnil] at hq'
              exact (held_none hq').elim
      · cases hq

end Verif.UIPHeap
