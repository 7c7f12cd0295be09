import Verif.RBHeap.Panic
import Verif.RBHeap.History
import Verif.Heap.ToObj

/-!
# Clients of strtree that recover from panics of their comparison function
-/

namespace Verif.RBHeap
open Verif.Heap Verif.Heap.Prog Verif.RB
variable {K V : Type} [Inhabited K] [Inhabited V]

/-- A copy-on-write call with comparison function `cm`. -/
def tryCow (cm : K → K → Option Int) (f : Nat) : KOp K V → Ptr → Prog (RD K V) Ptr
  | .insert k v, r => insertX cm f r k v
  | .delete k, r => do
    let x ← delX cm f r k
    pure x.1

/-- An in-place call with comparison function `cm`. -/
def tryInp (cm : K → K → Option Int) (f : Nat) : KOp K V → Ptr → Prog (RD K V) Ptr
  | .insert k v, r => inplaceInsertX cm f r k v
  | .delete _, r => pure r

/-- A client: it makes calls, each with what its comparison function does during the call, recovers from panics, and goes on by whether the call was finished. -/
inductive TryClient (K V : Type) where
  | done
  | call (op : SOp (KOp K V)) (cm : K → K → Option Int) (c : Bool → TryClient K V)

/-- The most calls it can make. -/
def TryClient.len : TryClient K V → Nat
  | .done => 0
  | .call _ _ c => max (c true).len (c false).len + 1

/-- A call and its outcome: memory and roots, and whether it was finished.  A tree in which an in-place call was not finished is forgotten. -/
def tryStep (f : Nat) (s : OStore (RD K V) Ptr) (cm : K → K → Option Int) : SOp (KOp K V) → Except Err (OStore (RD K V) Ptr × Bool)
  | .fresh => .ok (⟨s.heap, s.roots ++ [none]⟩, true)
  | .drop i => .ok (⟨s.heap, s.roots.eraseIdx i⟩, true)
  | .cow i o => match s.roots[i]? with
    | none => .ok (s, true)
    | some r => match (tryCow cm f o r).runH s.heap with
      | (.ok r', h) => .ok (⟨h, s.roots ++ [r']⟩, true)
      | (.error .panic, h) => .ok (⟨h, s.roots⟩, false)
      | (.error e, _) => .error e
  | .inp i o => match s.roots[i]? with
    | none => .ok (s, true)
    | some r => match (tryInp cm f o r).runH s.heap with
      | (.ok r', h) => .ok (⟨h, s.roots.set i r'⟩, true)
      | (.error .panic, h) => .ok (⟨h, s.roots.eraseIdx i⟩, false)
      | (.error e, _) => .error e

/-- What a call amounts to: an unfinished copy-on-write call to nothing, an unfinished in-place call to the loss of the tree. -/
def amounts {O : Type} (op : SOp O) (fin : Bool) : List (SOp O) :=
  if fin then [op] else match op with
    | .inp i _ => [.drop i]
    | _ => []

/-- The client's run, with the list of what its calls amount to. -/
def tryExec (f : Nat) (s : OStore (RD K V) Ptr) : TryClient K V → Except Err (OStore (RD K V) Ptr × List (SOp (KOp K V)))
  | .done => .ok (s, [])
  | .call op cm c => match tryStep f s cm op with
    | .error e => .error e
    | .ok (s', fin) => match tryExec f s' (c fin) with
      | .error e => .error e
      | .ok (s'', l) => .ok (s'', amounts op fin ++ l)

/-- A call, not the start or the end of a tree. -/
def isCall {O : Type} : SOp O → Prop
  | .cow _ _ => True
  | .inp _ _ => True
  | _ => False

/-- The lists the client's calls may amount to: a call counts, unless its comparison function may panic. -/
inductive Record : TryClient K V → List (SOp (KOp K V)) → Prop where
  | done : Record .done []
  | call {op cm c l} (fin : Bool) (hfin : fin = false → isCall op ∧ ∃ x y, cm x y = none) (hl : Record (c fin) l) : Record (.call op cm c) (amounts op fin ++ l)

/-- Comparison functions give the results of `cmp` or panic; in-place calls are insertions into trees not shared with others held.  A call may be unfinished only if
its comparison function may panic. -/
def TryClient.Legal (cmp : K → K → Int) (b : Book (KOp K V)) : TryClient K V → Prop
  | .done => True
  | .call op cm c => PartOf cm cmp ∧ b.Legal2 (fun _ _ => True) (fun _ => (rbImpl cmp 0).inpOk) op ∧
    (c true).Legal cmp (b.exec (amounts op true)) ∧ (isCall op → (∃ x y, cm x y = none) → (c false).Legal cmp (b.exec (amounts op false)))

variable {cm : K → K → Option Int} {cmp : K → K → Int}

theorem tryCow_cut (h : PartOf cm cmp) (f : Nat) (o : KOp K V) (r : Ptr) : Cut (tryCow cm f o r) ((rbImpl cmp f).toO.cow o r) := by
  cases o with
  | insert k v => exact insert_cut h f r k v
  | delete k => exact Cut.bind (del_cut h f r k) fun _ => .refl _

theorem tryInp_cut (h : PartOf cm cmp) (f : Nat) (o : KOp K V) (r : Ptr) : Cut (tryInp cm f o r) ((rbImpl cmp f).toO.inp o r) := by
  cases o with
  | insert k v => exact inplaceInsert_cut h f r k v
  | delete k => exact .refl _

theorem tryCow_total (f : Nat) (o : KOp K V) (r : Ptr) : tryCow (fun a b => some (cmp a b)) f o r = (rbImpl cmp f).toO.cow o r := by
  cases o with
  | insert k v => exact insert_total f r k v
  | delete k => simp only [tryCow, del_total]; rfl

theorem tryInp_total (f : Nat) (o : KOp K V) (r : Ptr) : tryInp (fun a b => some (cmp a b)) f o r = (rbImpl cmp f).toO.inp o r := by
  cases o with
  | insert k v => exact inplaceInsert_total f r k v
  | delete k => rfl

omit [Inhabited K] in
theorem part_cases (h : PartOf cm cmp) : (∃ x y, cm x y = none) ∨ cm = fun a b => some (cmp a b) := by
  by_cases hc : ∃ x y, cm x y = none
  · exact .inl hc
  · refine .inr (funext fun a => funext fun b => ?_)
    cases hr : cm a b with
    | none => exact absurd ⟨a, b, hr⟩ hc
    | some r => rw [h a b r hr]

/-- A program that may be cut short ends well or panics having done some of the accesses; the latter only if the comparison function may panic. -/
theorem cut_cases {α : Type} {D : Type} {W : Nat → Prop} {p q : Prog D α} {Q : α → Heap D → Prop} {h : Heap D} (hc : Cut p q) (hw : wp W q Q h) :
    (∃ x h', p.runH h = (.ok x, h') ∧ q.run h = .ok (x, h')) ∨ ∃ k, p.runH h = (.error .panic, q.haltAt k h) := by
  obtain ⟨x, h', r1, _⟩ := wp_run hw
  rcases hc.runH h with e | e
  · exact .inl ⟨x, h', by rw [e]; exact runH_ok.2 r1, r1⟩
  · exact .inr e

theorem tryStep_inv {n m f : Nat} (hc : LawfulCmp cmp) (hf : 2 * n + 3 ≤ f) (hm : m < n) {s : OStore (RD K V) Ptr} {b : Book (KOp K V)}
    (hi : OInv (rbImpl cmp f).toO 0 0 m s b) (op : SOp (KOp K V)) (h : PartOf cm cmp) (hl : b.Legal2 (fun _ _ => True) (fun _ => (rbImpl cmp 0).inpOk) op) :
    ∃ s' fin, tryStep f s cm op = .ok (s', fin) ∧ OInv (rbImpl cmp f).toO 0 0 (m + 1) s' (b.exec (amounts op fin)) ∧ (fin = false → isCall op ∧ ∃ x y, cm x y = none) := by
  have hI := Impl.toO_lawful (rbImpl_lawful (V := V) hc.refl hf)
  have hl' : b.Legal2 (rbImpl cmp f).toO.cowOk (rbImpl cmp f).toO.inpOk op := by
    cases op with
    | fresh => trivial
    | drop i => trivial
    | cow i o => exact fun _ _ => trivial
    | inp i o => exact hl
  -- steps that finish are steps of the store
  have fine : ∀ s', s.step (rbImpl cmp f).toO op = .ok s' → OInv (rbImpl cmp f).toO 0 0 (m + 1) s' (b.exec (amounts op true)) := by
    intro s' hs
    obtain ⟨s1, e1, i1, _⟩ := ostep_inv hI hm hi op hl' (by cases op <;> simp [OwnInp])
    rw [hs] at e1; cases e1
    exact i1
  obtain ⟨s0, e0, _, w0⟩ := ostep_inv hI hm hi op hl' (by cases op <;> simp [OwnInp])
  cases op with
  | fresh => exact ⟨_, true, rfl, fine _ rfl, by simp⟩
  | drop i => exact ⟨_, true, rfl, fine _ rfl, by simp⟩
  | cow i o =>
    cases hr : s.roots[i]? with
    | none => exact ⟨s, true, by simp only [tryStep, hr], fine _ (by simp only [OStore.step, hr]), by simp⟩
    | some r =>
      simp only [stepP, hr, wp_bind] at w0
      rcases cut_cases (tryCow_cut h f o r) w0 with ⟨r', h', a1, a2⟩ | ⟨k, a1⟩
      · exact ⟨⟨h', s.roots ++ [r']⟩, true, by simp only [tryStep, hr, a1], fine _ (by simp only [OStore.step, hr, a2]), by simp⟩
      · refine ⟨⟨((rbImpl cmp f).toO.cow o r).haltAt k s.heap, s.roots⟩, false, by simp only [tryStep, hr, a1], ?_, fun _ => ⟨trivial, ?_⟩⟩
        · obtain ⟨s1, e1, i1⟩ := xstep_inv hI hm hi (.giveUp i o k) hl'
          simp only [OStore.stepX, hr] at e1
          cases e1; exact i1
        · rcases part_cases h with q | rfl
          · exact q
          · obtain ⟨x, h', r1, _⟩ := wp_run w0
            rw [tryCow_total, runH_ok.2 r1] at a1
            cases a1
  | inp i o =>
    cases hr : s.roots[i]? with
    | none => exact ⟨s, true, by simp only [tryStep, hr], fine _ (by simp only [OStore.step, hr]), by simp⟩
    | some r =>
      simp only [stepP, hr, wp_bind] at w0
      rcases cut_cases (tryInp_cut h f o r) w0 with ⟨r', h', a1, a2⟩ | ⟨k, a1⟩
      · exact ⟨⟨h', s.roots.set i r'⟩, true, by simp only [tryStep, hr, a1], fine _ (by simp only [OStore.step, hr, a2]), by simp⟩
      · refine ⟨⟨((rbImpl cmp f).toO.inp o r).haltAt k s.heap, s.roots.eraseIdx i⟩, false, by simp only [tryStep, hr, a1], ?_, fun _ => ⟨trivial, ?_⟩⟩
        · obtain ⟨s1, e1, i1⟩ := xstep_inv hI hm hi (.giveUpInp i o k) hl'
          simp only [OStore.stepX, hr] at e1
          cases e1; exact i1
        · rcases part_cases h with q | rfl
          · exact q
          · obtain ⟨x, h', r1, _⟩ := wp_run w0
            rw [tryInp_total, runH_ok.2 r1] at a1
            cases a1

theorem tryExec_inv {n f : Nat} (hc : LawfulCmp cmp) (hf : 2 * n + 3 ≤ f) (c : TryClient K V) {m : Nat} (hm : m + c.len ≤ n) {s : OStore (RD K V) Ptr} {b : Book (KOp K V)}
    (hi : OInv (rbImpl cmp f).toO 0 0 m s b) (hl : c.Legal cmp b) : ∃ s' l, tryExec f s c = .ok (s', l) ∧ Record c l ∧ OInv (rbImpl cmp f).toO 0 0 (m + c.len) s' (b.exec l) := by
  induction c generalizing m s b with
  | done => exact ⟨s, [], rfl, .done, hi⟩
  | call op cm c ih =>
    simp only [TryClient.len] at hm ⊢
    obtain ⟨h1, h2, h3, h4⟩ := hl
    obtain ⟨s1, fin, e1, i1, hfin⟩ := tryStep_inv hc hf (by omega) hi op h1 h2
    have hlen : (c fin).len ≤ max (c true).len (c false).len := by cases fin <;> omega
    have hlc : (c fin).Legal cmp (b.exec (amounts op fin)) := by
      cases fin with
      | true => exact h3
      | false => exact h4 (hfin rfl).1 (hfin rfl).2
    obtain ⟨s2, l, e2, r2, i2⟩ := ih fin (m := m + 1) (by omega) i1 hlc
    refine ⟨s2, amounts op fin ++ l, by simp only [tryExec, e1, e2], .call fin hfin r2, ?_⟩
    rw [Book.exec_append]
    obtain ⟨T, a1, a2, a3, a4, a5, a6⟩ := i2
    exact ⟨T, a1, a2, a3, a4, fun t ht => ⟨(a5 t ht).1, (a5 t ht).2.1, by have := (a5 t ht).2.2; omega⟩, a6⟩

end Verif.RBHeap
