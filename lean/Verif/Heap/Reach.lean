import Verif.Heap.Store

/-!
# Observations on memory: answers of programs and reachable nodes
-/

namespace Verif.Heap
open Prog ATree
variable {D O α : Type}

/-- The result of running a program (none if it panics or does not end). -/
def answer (p : Prog D α) (h : Heap D) : Option α :=
  match p.run h with
  | .ok (x, _) => some x
  | .error _ => none

theorem answer_of_wp {W : Addr → Prop} {p : Prog D α} {h : Heap D} {x : α} (hp : wp W p (fun r h' => h' = h ∧ r = x) h) :
    answer p h = some x := by
  obtain ⟨y, h', r1, ⟨_, rfl⟩, _⟩ := wp_run hp
  simp [answer, r1]

/-- The node at `a` can be reached from the pointer. -/
inductive Reach (h : Heap D) : Ptr → Addr → Prop
  | here {a : Addr} {c : Cell D} : h.mem a = some c → Reach h (some a) a
  | child {a b : Addr} {c : Cell D} (i : Bool) : h.mem a = some c → Reach h (c.child i) b → Reach h (some a) b

theorem reach_iff {h : Heap D} {A : ATree D} (hA : Rep h A) (a : Addr) : Reach h (ptr A) a ↔ 1 ≤ cnt a A := by
  constructor
  · intro hr
    generalize hp : ptr A = p at hr
    induction hr generalizing A with
    | here h1 =>
      cases A with
      | nil => cases hp
      | node ad l r => cases hp; simp; omega
    | child i h1 h2 ih =>
      cases A with
      | nil => cases hp
      | node ad l r =>
        cases hp
        have h3 := hA.1
        rw [h1] at h3; cases h3
        have := ih (rep_child hA i) (ptr_child ad.1 ad.2 l r i).symm
        rw [cnt_child _ _ _ _ i]; omega
  · intro hc
    induction A with
    | nil => simp at hc
    | node ad l r ihl ihr =>
      obtain ⟨h1, h2, h3, h4⟩ := hA
      simp only [cnt_node] at hc
      by_cases e : ad.1 = a
      · subst e; exact .here h1
      · by_cases el : 1 ≤ cnt a l
        · exact .child false h1 (ihl h3 el)
        · exact .child true h1 (ihr h4 (by simp [e] at hc; omega))

/-- A history without in-place calls and without forgetting roots. -/
def CowOnly : List (SOp O) → Prop
  | [] => True
  | .fresh :: ops => CowOnly ops
  | .cow _ _ :: ops => CowOnly ops
  | .inp _ _ :: _ => False
  | .drop _ :: _ => False

theorem cowOnly_legal {ok : O → Prop} {ops : List (SOp O)} (hc : CowOnly ops) (b : Book O) : b.LegalAll ok ops := by
  induction ops generalizing b with
  | nil => trivial
  | cons op ops ih =>
    cases op with
    | fresh => exact ⟨trivial, ih hc _⟩
    | cow i o => exact ⟨trivial, ih hc _⟩
    | inp i o => exact hc.elim
    | drop i => exact hc.elim

theorem legal_append {ok : O → Prop} {b : Book O} {x y : List (SOp O)} : b.LegalAll ok (x ++ y) ↔ b.LegalAll ok x ∧ (b.exec x).LegalAll ok y := by
  induction x generalizing b with
  | nil => simp [Book.LegalAll, Book.exec]
  | cons op x ih => simp [Book.LegalAll, Book.exec, ih, and_assoc]

theorem book_append (b : Book O) (x y : List (SOp O)) : b.exec (x ++ y) = (b.exec x).exec y := by
  induction x generalizing b with
  | nil => rfl
  | cons op x ih => simp [Book.exec, ih]

/-- Copy-on-write histories keep the earlier book entries. -/
theorem book_cowOnly {ops : List (SOp O)} (hc : CowOnly ops) (b : Book O) {i : Nat} {v : Nat × List O} (hv : b.vs[i]? = some v) :
    (b.exec ops).vs[i]? = some v := by
  induction ops generalizing b with
  | nil => exact hv
  | cons op ops ih =>
    have hlt : i < b.vs.length := by
      rcases Nat.lt_or_ge i b.vs.length with h | h
      · exact h
      · simp [List.getElem?_eq_none h] at hv
    cases op with
    | fresh => exact ih hc _ (by simp only [Book.step]; rw [List.getElem?_append_left hlt]; exact hv)
    | cow j o =>
      refine ih hc _ ?_
      simp only [Book.step]
      split
      · exact hv
      · simp only; rw [List.getElem?_append_left hlt]; exact hv
    | inp i o => exact hc.elim
    | drop i => exact hc.elim

/-- ... and the earlier roots. -/
theorem store_cowOnly {I : Impl D O} {ops : List (SOp O)} (hc : CowOnly ops) {s s' : Store D} (he : s.exec I ops = .ok s') {i : Nat} {r : Ptr}
    (hr : s.roots[i]? = some r) : s'.roots[i]? = some r := by
  induction ops generalizing s with
  | nil => cases he; exact hr
  | cons op ops ih =>
    have hlt : i < s.roots.length := by
      rcases Nat.lt_or_ge i s.roots.length with h | h
      · exact h
      · simp [List.getElem?_eq_none h] at hr
    simp only [Store.exec] at he
    cases op with
    | fresh => exact ih hc he (by simp only; rw [List.getElem?_append_left hlt]; exact hr)
    | cow j o =>
      cases hs : s.step I (.cow j o) with
      | error e => rw [hs] at he; cases he
      | ok s1 =>
        rw [hs] at he
        refine ih hc he ?_
        simp only [Store.step] at hs
        split at hs
        · cases hs; exact hr
        · split at hs
          · cases hs; simp only; rw [List.getElem?_append_left hlt]; exact hr
          · cases hs
    | inp i o => exact hc.elim
    | drop i => exact hc.elim

end Verif.Heap
