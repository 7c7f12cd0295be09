import Verif.DomHeap.History
import Verif.DLHeap.Held
import Verif.DomTree.Enum

/-! # What a domaintree keeps alive -/

namespace Verif.DomHeap
open Verif Verif.Heap Verif.Heap.ATree Verif.RB Verif.RBHeap Verif.DL Verif.DLHeap Verif.DomTree

variable {V : Type}

/-- The pointers inside a payload: the node behind a label. -/
def outs : DD V → List Ptr
  | .rb d => [d.value]
  | _ => []

/-- The user value inside a payload. -/
def stored : DD V → Option V
  | .node v => v
  | _ => none

/-- Labels in a list of domains. -/
def labels (es : List (List Bytes × V)) : Nat := (es.map fun e => e.1.length).sum

theorem labels_append (a b : List (List Bytes × V)) : labels (a ++ b) = labels a + labels b := by simp [labels]
theorem labels_below (l : Bytes) (es : List (List Bytes × V)) : labels (es.map fun e => (l :: e.1, e.2)) = labels es + es.length := by
  induction es with
  | nil => rfl
  | cons e es ih =>
    simp only [labels, List.map_cons, List.sum_cons, List.length_cons] at ih ⊢
    omega

theorem enumerate_mapT (fn : Ptr → Node V) (t : BTree (RD Bytes Ptr)) : RB.enumerate (mapT fn t) = (RB.enumerate t).map fun p => (p.1, fn p.2) := by
  induction t with
  | nil => rfl
  | node d l r ihl ihr => simp [RB.enumerate, mapT, BTree.map, ← ihl, ← ihr]

theorem keeps_spec {m k : Nat} {h : Heap (DD V)} {a : Addr} {n : Node V} {F : Addr → Prop} (hN : NRep m h k a n F) (hw : WF n) :
    ∃ (es : List (List Bytes × V)) (L : List Addr), (∀ q v, (q, v) ∈ es ↔ valueAt n q = some v) ∧ (es.Pairwise fun a b => DomLt a.1 b.1) ∧
      L.length ≤ 2 + 3 * labels es ∧
      ∀ x, Held h outs (some a) x → x ∈ L ∧ ∀ c, h.mem x = some c → ∀ v, stored c.d = some v → ∃ q, (q, v) ∈ es := by
  induction k generalizing a n F with
  | zero => exact hN.elim
  | succ k ih =>
    obtain ⟨t, A, fn, ff, o⟩ := hN
    cases hw with
    | @mk br val hok hsub hlive hlen =>
      have hbr : br = brOf t A fn := o.br
      have hroot : DL.rootOf br = mapT fn (erase A) := by
        rw [hbr]
        cases t with
        | none => have : A = .nil := o.lab.cell; subst this; rfl
        | some b => rfl
      have hget : ∀ p ∈ RB.enumerate (erase A), at_ A p.1 = some p.2 := by
        intro p hp
        have : (p.1, p.2) ∈ RawEnumerate (some ⟨erase A⟩) := hp
        exact (DL.mem_iff (t := some ⟨erase A⟩) ⟨o.lab.bal, o.lab.srt⟩).1 this
      have hraw : ∀ p ∈ RB.enumerate (erase A), DL.RawGet br p.1 = some (fn p.2) := by
        intro p hp
        rw [← DL.mem_iff hok]
        unfold RawEnumerate
        rw [hroot, enumerate_mapT]
        exact List.mem_map_of_mem hp
      have hloop : ∀ ps : List (Bytes × Ptr), (∀ p ∈ ps, p ∈ RB.enumerate (erase A)) → RB.Sorted cmpLabel ps →
          ∃ (es : List (List Bytes × V)) (L : List Addr), (∀ q v, (q, v) ∈ es ↔ ∃ p ∈ ps, ∃ q', q = p.1 :: q' ∧ valueAt (fn p.2) q' = some v) ∧
            (es.Pairwise fun a b => DomLt a.1 b.1) ∧ L.length + ps.length ≤ 3 * labels es ∧
            ∀ p ∈ ps, ∀ x, Held h outs p.2 x → x ∈ L ∧ ∀ c, h.mem x = some c → ∀ v, stored c.d = some v → ∃ q, (q, v) ∈ es := by
        intro ps hps hs
        induction ps with
        | nil => exact ⟨[], [], by simp, .nil, by simp [labels], by simp⟩
        | cons p ps ihps =>
          obtain ⟨es, L, e1, e2, e3, e4⟩ := ihps (fun x hx => hps x (by simp [hx])) (List.pairwise_cons.1 hs).2
          have hp := hps p (by simp)
          obtain ⟨c, hc, hR⟩ := o.sub p.1 p.2 (hget p hp)
          obtain ⟨fs, M, f1, f2, f3, f4⟩ := ih hR (hsub _ _ (hraw p hp))
          obtain ⟨q0, v0, hv0⟩ := live_value (hsub _ _ (hraw p hp)) (hlive _ _ (hraw p hp))
          have hpos : 0 < fs.length := List.length_pos_of_mem ((f1 q0 v0).2 hv0)
          refine ⟨fs.map (fun e => (p.1 :: e.1, e.2)) ++ es, M ++ L, ?_, ?_, ?_, ?_⟩
          · intro q v
            simp only [List.mem_append, List.mem_map, List.mem_cons, e1]
            constructor
            · rintro (⟨⟨q', v'⟩, h1, h2⟩ | ⟨x, hx, q', h1, h2⟩)
              · cases h2
                exact ⟨p, .inl rfl, q', rfl, (f1 _ _).1 h1⟩
              · exact ⟨x, .inr hx, q', h1, h2⟩
            · rintro ⟨x, rfl | hx, q', h1, h2⟩
              · exact .inl ⟨(q', v), (f1 q' v).2 h2, by rw [h1]⟩
              · exact .inr ⟨x, hx, q', h1, h2⟩
          · rw [List.pairwise_append]
            refine ⟨?_, e2, ?_⟩
            · rw [List.pairwise_map]
              exact f2.imp fun h => .inr ⟨rfl, h⟩
            · rintro a ha ⟨q, v⟩ hb
              simp only [List.mem_map] at ha
              obtain ⟨e, he, rfl⟩ := ha
              obtain ⟨x, hx, q', rfl, _⟩ := (e1 q v).1 hb
              left
              exact DL.cmpLabel_lt.1 ((List.pairwise_cons.1 hs).1 x hx)
          · rw [labels_append, labels_below, List.length_append, List.length_cons]
            omega
          · intro x hx y hy
            simp only [List.mem_cons] at hx
            rcases hx with rfl | hx
            · rw [hc] at hy
              obtain ⟨h1, h2⟩ := f4 y hy
              refine ⟨by simp [h1], fun c hc v hv => ?_⟩
              obtain ⟨q, hq⟩ := h2 c hc v hv
              exact ⟨_, List.mem_append_left _ (List.mem_map_of_mem hq)⟩
            · obtain ⟨h1, h2⟩ := e4 x hx y hy
              refine ⟨by simp [h1], fun c hc v hv => ?_⟩
              obtain ⟨q, hq⟩ := h2 c hc v hv
              exact ⟨q, List.mem_append_right _ hq⟩
      obtain ⟨es, L, e1, e2, e3, e4⟩ := hloop _ (fun _ hp => hp) o.lab.srt
      have hlist : ∀ q v, (q, v) ∈ val.toList.map (fun v => (([] : List Bytes), v)) ++ es ↔ valueAt (.mk br val) q = some v := by
        intro q v
        simp only [List.mem_append, List.mem_map, Option.mem_toList, e1]
        cases q with
        | nil => simp
        | cons l q =>
          rw [valueAt_mk]
          constructor
          · rintro (⟨_, _, h⟩ | ⟨p, hp, q', h, hv⟩)
            · cases h
            · cases h
              rw [hraw p hp]; exact hv
          · intro hv
            right
            cases hg : DL.RawGet br l with
            | none => simp [hg] at hv
            | some mm =>
              have : (l, mm) ∈ RawEnumerate br := (DL.mem_iff hok).2 hg
              unfold RawEnumerate at this
              rw [hroot, enumerate_mapT, List.mem_map] at this
              obtain ⟨p, hp, hpe⟩ := this
              cases hpe
              rw [hg] at hv
              exact ⟨p, hp, q, rfl, hv⟩
      refine ⟨val.toList.map (fun v => ([], v)) ++ es, a :: (t.toList ++ addrs A ++ L), hlist, ?_, ?_, ?_⟩
      · rw [List.pairwise_append]
        refine ⟨by cases val <;> simp, e2, ?_⟩
        rintro x hx ⟨q, v⟩ hb
        simp only [List.mem_map] at hx
        obtain ⟨_, _, rfl⟩ := hx
        obtain ⟨p, _, q', rfl, _⟩ := (e1 q v).1 hb
        trivial
      · have h0 : labels (val.toList.map (fun v => (([] : List Bytes), v))) = 0 := by cases val <;> rfl
        have h1 : t.toList.length ≤ 1 := by cases t <;> simp
        rw [RB.enumerate_length] at e3
        simp only [labels_append, h0, List.length_cons, List.length_append, addrs_length]
        omega
      · intro x hx
        rcases held_some o.cell hx with rfl | ⟨i, hi⟩ | ⟨q, hq, _⟩
        · refine ⟨by simp, fun c hc v hv => ⟨[], ?_⟩⟩
          rw [o.cell] at hc; cases hc
          have hv : val = some v := hv
          simp [hv]
        · cases i
          · rcases held_label (M := dm) rfl o.lab hi with ⟨rfl, h1⟩ | ⟨h1, d, h2, h3⟩ | ⟨d, h2, q, hq, hq'⟩
            · refine ⟨by simp, fun c hc v hv => ?_⟩
              rw [h1 c hc] at hv; cases hv
            · refine ⟨by simp [h1], fun c hc v hv => ?_⟩
              rw [h3 c hc] at hv; cases hv
            · have hq : q = d.value := by simpa [dm, outs] using hq
              subst hq
              obtain ⟨h3, h4⟩ := e4 _ (RB.mem_enumerate_of_toPre h2) x hq'
              refine ⟨by simp [h3], fun c hc v hv => ?_⟩
              obtain ⟨q, hq⟩ := h4 c hc v hv
              exact ⟨q, List.mem_append_right _ hq⟩
          · exact (held_none hi).elim
        · cases hq

end Verif.DomHeap
