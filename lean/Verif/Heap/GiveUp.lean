import Verif.Heap.Obj

/-!
# Calls that are given up

A call may end in the middle, with its memory accesses up to there done: a comparison function of the client panics and the client recovers, or the goroutine
is ended by `runtime.Goexit`.  A client history may have such calls anywhere.
-/

namespace Verif.Heap
open Prog
variable {D O R α : Type}

/-- The memory after the first `k` accesses of the program (or all of them). -/
def Prog.haltAt : Nat → Prog D α → Heap D → Heap D
  | 0, _, h => h
  | k + 1, p, h => match p.step h with
    | some (q, h') => haltAt k q h'
    | none => h

/-- A step of the client: a call as in histories, or one given up after `k` accesses.  An in-place call that was given up leaves a tree that is not to be used;
the client forgets it. -/
inductive XOp (O : Type) where
  | call (op : SOp O)
  | giveUp (i : Nat) (o : O) (k : Nat)
  | giveUpInp (i : Nat) (o : O) (k : Nat)

/-- One step. -/
def OStore.stepX (I : OImpl D O R) (s : OStore D R) : XOp O → Except Err (OStore D R)
  | .call op => s.step I op
  | .giveUp i o k => match s.roots[i]? with
    | none => .ok s
    | some r => .ok ⟨(I.cow o r).haltAt k s.heap, s.roots⟩
  | .giveUpInp i o k => match s.roots[i]? with
    | none => .ok s
    | some r => .ok ⟨(I.inp o r).haltAt k s.heap, s.roots.eraseIdx i⟩

/-- A history, oldest step first. -/
def OStore.execX (I : OImpl D O R) (s : OStore D R) : List (XOp O) → Except Err (OStore D R)
  | [] => .ok s
  | op :: ops => match s.stepX I op with
    | .ok s' => s'.execX I ops
    | .error e => .error e

/-- The client's record of a step: a copy-on-write call given up leaves no trace, an in-place call given up loses its tree. -/
def XOp.asCalls : XOp O → List (SOp O)
  | .call op => [op]
  | .giveUp _ _ _ => []
  | .giveUpInp i _ _ => [.drop i]

/-- The calls of a history that count. -/
def asCalls : List (XOp O) → List (SOp O)
  | [] => []
  | x :: xs => x.asCalls ++ asCalls xs

/-- What the client may do, whether or not the call will be given up. -/
def Book.LegalX (ok iok : List O → O → Prop) (b : Book O) : XOp O → Prop
  | .call op => b.Legal2 ok iok op
  | .giveUp i o _ => b.Legal2 ok iok (.cow i o)
  | .giveUpInp i o _ => b.Legal2 ok iok (.inp i o)

def Book.LegalAllX (ok iok : List O → O → Prop) (b : Book O) : List (XOp O) → Prop
  | [] => True
  | x :: xs => b.LegalX ok iok x ∧ (b.exec x.asCalls).LegalAllX ok iok xs

theorem wp_haltAt {W : Nat → Prop} {p : Prog D α} {Q : α → Heap D → Prop} {h : Heap D} (hp : wp W p Q h) (hk : h.Ok) (k : Nat) :
    h.next ≤ (p.haltAt k h).next ∧ (p.haltAt k h).Ok ∧ ∀ a, a < h.next → ¬ W a → (p.haltAt k h).mem a = h.mem a := by
  induction k generalizing p h with
  | zero => exact ⟨Nat.le_refl _, hk, fun _ _ _ => rfl⟩
  | succ k ih =>
    cases p with
    | ret x => exact ⟨Nat.le_refl _, hk, fun _ _ _ => rfl⟩
    | stop e => exact hp.elim
    | read a f =>
      obtain ⟨c, h1, h2⟩ := hp
      simp only [haltAt, Prog.step, h1]
      exact ih h2 hk
    | write a c f =>
      obtain ⟨w, ⟨c0, h1⟩, h2⟩ := hp
      obtain ⟨a1, a2, a3⟩ := ih h2 (hk.put h1 c)
      refine ⟨a1, a2, fun b hb hW => ?_⟩
      simp only [haltAt, Prog.step]
      rw [a3 b hb hW, Heap.mem_put, if_neg]
      rintro rfl; exact hW w
    | alloc c f =>
      obtain ⟨a1, a2, a3⟩ := ih (p := f h.next) (h := h.push c) hp (hk.push c)
      simp only [haltAt, Prog.step]
      refine ⟨by simp at a1; omega, a2, fun b hb hW => ?_⟩
      rw [a3 b (by simp; omega) hW, Heap.mem_push, if_neg (by omega)]

theorem xstep_inv {I : OImpl D O R} {n m : Nat} (hI : I.Lawful n) (hm : m < n) {s : OStore D R} {b : Book O} (h : OInv I 0 0 m s b) (x : XOp O)
    (hl : b.LegalX I.cowOk I.inpOk x) : ∃ s', s.stepX I x = .ok s' ∧ OInv I 0 0 (m + 1) s' (b.exec x.asCalls) := by
  cases x with
  | call op =>
    obtain ⟨s', a, b, _⟩ := ostep_inv hI hm h op hl (by cases op <;> simp [OwnInp])
    exact ⟨s', a, b⟩
  | giveUp i o k =>
    obtain ⟨T, ⟨g1, g2, g3⟩, hk, h1, h2, h3, h4⟩ := h
    cases hT : T[i]? with
    | none =>
      have e1 : s.roots[i]? = none := by simp [h1, hT]
      refine ⟨s, by simp [OStore.stepX, e1], T, ⟨g1, g2, g3⟩, hk, h1, h2, fun t ht => ?_, h4⟩
      obtain ⟨a, d, e⟩ := h3 t ht
      exact ⟨a, d, by omega⟩
    | some t =>
      have e1 : s.roots[i]? = some t.1.1 := by simp [h1, hT]
      have e2 : b.vs[i]? = some t.2 := by simp [h2, hT]
      obtain ⟨a1, a4, a5⟩ := h3 t (List.mem_of_getElem? hT)
      have hwp := hI.cow_ok t.2.2 o t.1.1 s.heap t.1.2 (by omega) (hl t.2 e2) a1
      obtain ⟨b1, b2, b3⟩ := wp_haltAt hwp hk k
      refine ⟨⟨(I.cow o t.1.1).haltAt k s.heap, s.roots⟩, by simp only [OStore.stepX, e1], T, ⟨Nat.zero_le _, g2, fun t ht hn x hx => Nat.zero_le _⟩, b2, h1, h2, fun u hu => ?_, h4⟩
      obtain ⟨a, d, e⟩ := h3 u hu
      refine ⟨hI.frame a b1 fun x hx => ?_, d, by omega⟩
      have := hI.lt a hx
      exact b3 x this (by omega)
  | giveUpInp i o k =>
    obtain ⟨T, ⟨g1, g2, g3⟩, hk, h1, h2, h3, h4⟩ := h
    cases hT : T[i]? with
    | none =>
      have e1 : s.roots[i]? = none := by simp [h1, hT]
      have hlen : T.length ≤ i := by
        rcases Nat.lt_or_ge i T.length with q | q
        · simp [List.getElem?_eq_getElem q] at hT
        · exact q
      refine ⟨s, by simp [OStore.stepX, e1], T, ⟨g1, g2, g3⟩, hk, h1, ?_, fun t ht => ?_, h4⟩
      · simp only [XOp.asCalls, Book.exec, Book.step]
        rw [List.eraseIdx_of_length_le (by simp [h2]; omega)]
        exact h2
      · obtain ⟨a, d, e⟩ := h3 t ht
        exact ⟨a, d, by omega⟩
    | some t =>
      have e1 : s.roots[i]? = some t.1.1 := by simp [h1, hT]
      have e2 : b.vs[i]? = some t.2 := by simp [h2, hT]
      have ht : t ∈ T := List.mem_of_getElem? hT
      obtain ⟨a1, a4, a5⟩ := h3 t ht
      have hl := hl t.2 e2
      have hwp := hI.inp_ok t.2.2 o t.1.1 s.heap t.1.2 (by omega) hl.1 a1
      obtain ⟨b1, b2, b3⟩ := wp_haltAt hwp hk k
      refine ⟨⟨(I.inp o t.1.1).haltAt k s.heap, s.roots.eraseIdx i⟩, by simp only [OStore.stepX, e1], T.eraseIdx i, ⟨Nat.zero_le _, g2, fun t ht hn x hx => Nat.zero_le _⟩, b2, ?_, ?_, fun u hu => ?_, fun t ht u hu =>
        h4 t (List.mem_of_mem_eraseIdx ht) u (List.mem_of_mem_eraseIdx hu)⟩
      · simp [h1, map_eraseIdx]
      · simp [XOp.asCalls, Book.exec, Book.step, h2, map_eraseIdx]
      · have hu' := List.mem_of_mem_eraseIdx hu
        obtain ⟨a, d, e⟩ := h3 u hu'
        have hne : t.2.1 ≠ u.2.1 := by
          obtain ⟨j, hj⟩ := List.mem_iff_getElem?.1 hu
          rw [List.getElem?_eraseIdx] at hj
          intro he
          split at hj
          · exact hl.2 j u.2 (by omega) (by simp [h2, hj]) he.symm
          · exact hl.2 (j + 1) u.2 (by omega) (by simp [h2, hj]) he.symm
        refine ⟨hI.frame a b1 fun x hx => ?_, d, by omega⟩
        have := hI.lt a hx
        refine b3 x this ?_
        rintro (q | q)
        · exact h4 t ht u hu' hne x ⟨q, hx⟩
        · omega

theorem Book.exec_append (b : Book O) (xs ys : List (SOp O)) : b.exec (xs ++ ys) = (b.exec xs).exec ys := by
  induction xs generalizing b with
  | nil => rfl
  | cons x xs ih => exact ih _

theorem xexec_inv {I : OImpl D O R} {n m : Nat} (hI : I.Lawful n) {s : OStore D R} {b : Book O} (h : OInv I 0 0 m s b) (xs : List (XOp O))
    (hm : m + xs.length ≤ n) (hl : b.LegalAllX I.cowOk I.inpOk xs) : ∃ s', s.execX I xs = .ok s' ∧ OInv I 0 0 (m + xs.length) s' (b.exec (asCalls xs)) := by
  induction xs generalizing s b m with
  | nil => exact ⟨s, rfl, h⟩
  | cons x xs ih =>
    simp only [List.length_cons] at hm
    obtain ⟨s1, e1, i1⟩ := xstep_inv hI (by omega) h x hl.1
    obtain ⟨s2, e2, i2⟩ := ih i1 (by omega) hl.2
    refine ⟨s2, by simp [OStore.execX, e1, e2], ?_⟩
    rw [asCalls, Book.exec_append, List.length_cons, Nat.add_comm _ 1, ← Nat.add_assoc]; exact i2

variable {I : OImpl D O R} {n : Nat}

/-- In every legal history with calls given up every held root is what its own chain of finished calls makes. -/
theorem obj_historyX (hI : I.Lawful n) (xs : List (XOp O)) (hn : xs.length ≤ n) (hl : (Book.init : Book O).LegalAllX I.cowOk I.inpOk xs) :
    ∃ s, OStore.init.execX I xs = .ok s ∧ s.roots.length = (Book.init.exec (asCalls xs)).vs.length ∧
      ∀ (i : Nat) r v, s.roots[i]? = some r → (Book.init.exec (asCalls xs)).vs[i]? = some v → v.2.length ≤ n ∧ ∃ F, I.Obj s.heap r v.2 F := by
  obtain ⟨s, e, T, _, hk, h1, h2, h3, h4⟩ := xexec_inv hI (oinv_init I) xs (by omega) hl
  refine ⟨s, e, by simp [h1, h2], fun i r v hr hv => ?_⟩
  rw [h1, List.getElem?_map] at hr
  rw [h2, List.getElem?_map] at hv
  cases hT : T[i]? with
  | none => simp [hT] at hr
  | some t =>
    simp only [hT, Option.map_some, Option.some.injEq] at hr hv
    subst hr hv
    obtain ⟨a1, _, a5⟩ := h3 t (List.mem_of_getElem? hT)
    exact ⟨by omega, _, a1⟩

end Verif.Heap
