import Verif.IPHeap.History
import Verif.Heap.Held
import Verif.IP.Held

/-! # What an iptree keeps alive -/

namespace Verif.IPHeap
open Verif Verif.Heap Verif.Heap.ATree Verif.Num Verif.NumHeap Verif.IP

variable {V : Type}

/-- The pointers inside a payload: a nested tree. -/
def outs : IPD V → List Ptr
  | .n64 d => match d.value with
    | .sub p => [p]
    | .user _ => []
  | _ => []

/-- The user value inside a payload. -/
def stored : IPD V → Option V
  | .n32 d => some d.value
  | .n64 d => match d.value with
    | .sub _ => none
    | .user v => some v
  | .tree => none

theorem toPre_mapT {w : Nat} {V W : Type} (g : V → W) (t : NTree w V) : (mapT g t).toPre = t.toPre.map (ND.mapV g) := by
  induction t with
  | nil => rfl
  | node n l r ihl ihr => simp [BTree.toPre, ihl, ihr]

theorem size_mapT {w : Nat} {V W : Type} (g : V → W) (t : NTree w V) : (mapT g t).size = t.size := by
  induction t with
  | nil => rfl
  | node n l r ihl ihr => simp [ihl, ihr]

theorem sumV_mapT {w : Nat} {V W : Type} (g : V → W) (s : W → Nat) (t : NTree w V) : sumV s (mapT g t) = sumV (fun v => s (g v)) t := by
  induction t with
  | nil => rfl
  | node n l r ihl ihr => simp [ihl, ihr, ND.mapV]

/-- The addresses of a nested tree. -/
def subAddrs : AV V → List Addr
  | .user _ => []
  | .sub B => addrs B

theorem addrs_mapA {w : Nat} {V W : Type} (g : V → W) (t : ATree (ND w V)) : addrs (mapA g t) = addrs t := by
  induction t with
  | nil => rfl
  | node ad l r ihl ihr => simp [ihl, ihr]

theorem flatMap_length {w : Nat} {V : Type} (g : V → List Addr) (s : V → Nat) (h : ∀ v, (g v).length = s v) (t : NTree w V) :
    ((vals t).flatMap g).length = sumV s t := by
  induction t with
  | nil => rfl
  | node n l r ihl ihr => simp [vals, ihl, ihr, h]; omega

variable [Inhabited V]

theorem keeps_of_rep {h : Heap (IPD V)} {r : Ptr} {t : Option (Tree V)} {F : Addr → Prop} (hT : TRep h r t F) (hw : WFT (base t)) (hg : GlueT (base t)) :
    Keeps h outs r (1 + 3 * (IP.Enumerate t).length) fun d => ∀ v, stored d = some v → v = default ∨ ∃ k, (k, v) ∈ IP.Enumerate t := by
  cases t with
  | none =>
    obtain ⟨rfl, _⟩ := hT
    exact ⟨[], by simp, fun a ha => (held_none ha).elim⟩
  | some t =>
    obtain ⟨a, A, P, rfl, ha, _, ⟨hA, _, _⟩, ⟨hP, _⟩, rfl, _⟩ := hT
    have hw : WFT ⟨erase A, mapT toTV (erase P)⟩ := hw
    have hg : GlueT ⟨erase A, mapT toTV (erase P)⟩ := hg
    refine ⟨a :: (addrs A ++ (addrs P ++ (vals (erase P)).flatMap subAddrs)), ?_, fun x hx => ?_⟩
    · have h1 := count_le hw hg
      have h2 := flatMap_length subAddrs (fun v => subSize (toTV v)) (fun v => by cases v with
        | user v => rfl
        | sub B => exact addrs_length B) (erase P)
      simp only [size_mapT, sumV_mapT] at h1
      simp only [List.length_cons, List.length_append, addrs_length, h2]
      omega
    · -- what is listed
      have l4 : ∀ n ∈ Num.enumerate (erase A), (key4 n, n.value) ∈ IP.Enumerate (some ⟨erase A, mapT toTV (erase P)⟩) := by
        intro n hn
        simp only [IP.Enumerate, List.mem_append, List.mem_map]
        exact .inl ⟨n, hn, rfl⟩
      have l6 : ∀ n ∈ Num.enumerate (mapT toTV (erase P)), ∀ x ∈ enum6 n, x ∈ IP.Enumerate (some ⟨erase A, mapT toTV (erase P)⟩) := by
        intro n hn x hx
        simp only [IP.Enumerate, List.mem_append, List.mem_flatMap]
        exact .inr ⟨n, hn, hx⟩
      rcases held_some ha hx with rfl | ⟨i, hi⟩ | ⟨q, hq, _⟩
      · refine ⟨by simp, fun c hc v hv => ?_⟩
        rw [ha] at hc; cases hc; cases hv
      · cases i
        · have hi : Held h outs (ptr A) x := hi
          rcases held_tree hA hi with ⟨h1, d, h2, h3⟩ | ⟨d, _, q, hq, _⟩
          · refine ⟨by simp [h1], fun c hc v hv => ?_⟩
            rw [h3 c hc] at hv
            have hv : d.value = v := by simpa [k32, stored] using hv
            subst hv
            cases hl : d.leaf
            · exact .inl (hg.v4 d h2 hl)
            · exact .inr ⟨_, l4 d (enumerate_of_leaf h2 hl)⟩
          · simp [k32, outs] at hq
        · have hi : Held h outs (ptr (mapA toHV P)) x := by rw [ptr_mapA]; exact hi
          have hglue : ∀ n ∈ (erase P).toPre, n.leaf = false → toTV n.value = default := by
            intro n hn hl
            exact hg.v6 (n.mapV toTV) (by rw [toPre_mapT]; exact List.mem_map_of_mem hn) hl
          have hlist : ∀ n ∈ (erase P).toPre, n.leaf = true → n.mapV toTV ∈ Num.enumerate (mapT toTV (erase P)) := by
            intro n hn hl
            exact enumerate_of_leaf (by rw [toPre_mapT]; exact List.mem_map_of_mem hn) hl
          rcases held_tree hP.rep hi with ⟨h1, d, h2, h3⟩ | ⟨d, h2, q, hq, hq'⟩
          · rw [addrs_mapA] at h1
            refine ⟨by simp [h1], fun c hc v hv => ?_⟩
            rw [h3 c hc] at hv
            rw [erase_mapA, toPre_mapT, List.mem_map] at h2
            obtain ⟨n, hn, rfl⟩ := h2
            cases e : n.value with
            | sub B => simp [k64, stored, ND.mapV, e, toHV] at hv
            | user u =>
              simp [k64, stored, ND.mapV, e, toHV] at hv
              subst hv
              cases hl : n.leaf
              · have := hglue n hn hl
                rw [e] at this
                cases this; exact .inl rfl
              · refine .inr ⟨key6 (n.mapV toTV), l6 _ (hlist n hn hl) _ ?_⟩
                simp [enum6, ND.mapV, e, toTV]
          · rw [erase_mapA, toPre_mapT, List.mem_map] at h2
            obtain ⟨n, hn, rfl⟩ := h2
            cases e : n.value with
            | user u => simp [k64, outs, ND.mapV, e, toHV] at hq
            | sub B =>
              simp [k64, outs, ND.mapV, e, toHV] at hq
              subst hq
              have hv : AV.sub B ∈ vals (erase P) := by
                rw [vals_toPre, List.mem_map]; exact ⟨n, hn, e⟩
              have hB : Sub h B := hP.sub _ hv
              have hq' : Held h outs (ptr (mapA HV.user B)) x := by rw [ptr_mapA]; exact hq'
              rcases held_tree hB.1 hq' with ⟨h1, d, h2, h3⟩ | ⟨d, h2, q, hq, _⟩
              · rw [addrs_mapA] at h1
                refine ⟨?_, fun c hc v hv' => ?_⟩
                · simp only [List.mem_cons, List.mem_append, List.mem_flatMap]
                  exact .inr (.inr (.inr ⟨_, hv, h1⟩))
                · rw [h3 c hc] at hv'
                  rw [erase_mapA, toPre_mapT, List.mem_map] at h2
                  obtain ⟨m, hm, rfl⟩ := h2
                  simp [k64, stored, ND.mapV] at hv'
                  subst hv'
                  have hl : n.leaf = true := by
                    cases hl : n.leaf
                    · have := hglue n hn hl
                      rw [e] at this
                      exact nomatch this
                    · rfl
                  cases hml : m.leaf
                  · refine .inl (hg.sub (erase B) ?_ m hm hml)
                    show TV.sub (erase B) ∈ vals (mapT toTV (erase P))
                    rw [vals_toPre, toPre_mapT, List.mem_map]
                    exact ⟨_, List.mem_map_of_mem hn, by simp [ND.mapV, e, toTV]⟩
                  · refine .inr ⟨key6s (n.mapV toTV).key m, l6 _ (hlist n hn hl) _ ?_⟩
                    simp only [enum6, ND.mapV, e, toTV, List.mem_map]
                    exact ⟨m, enumerate_of_leaf hm hml, rfl⟩
              · rw [erase_mapA, toPre_mapT, List.mem_map] at h2
                obtain ⟨m, hm, rfl⟩ := h2
                simp [k64, outs, ND.mapV] at hq
      · cases hq

end Verif.IPHeap
