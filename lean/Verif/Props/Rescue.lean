import Verif.Pipe.Exec
import Verif.Pipe.Rescue
import Verif.Props.CbPanic
import Verif.Props.UpdateShared
import Verif.Props.UpdateSchedules

/-!
# Property C105: the goroutine that a panicking callback of UpdateDescendants leaves behind

The client recovers from the panic and goes on (`sessionP`): it derives trees from those it holds, the updated one included, starts trees, inserts in place into trees it started since,
asks.  The goroutines of the broken loop run beside that, up to their next send.
-/

namespace Verif.Props
open Verif Verif.Heap Verif.Heap.Prog Verif.Pipe Verif.IP Verif.IPHeap
variable {V : Type} [Inhabited V]

/-- UpdateDescendants of the `i`-th tree with a callback that may panic, a deferred `recover()`, and what the client does then. -/
def recovering (f rounds : Nat) (cb : List (IPNet × V) → IPNet → V → Option (V × Bool)) (n : IPNet) (r : Ptr) (more : List (TOp (UOp V) NetQ)) (roots : List Ptr) :
    Main (IPD V) Fields Addr (Option (List (IPNet × V)) × List (Option (Reply (HV V) (IPNet × HV V))) × List Ptr) :=
  (updX f rounds (loggedX cb) r (some n) []).rescue fun o => .prog (sessionP (ipuImpl true f) (netRead f) more roots >>= fun x => pure (o, x)) .ret

/-- What has come of it: whether the call panicked and the calls of the callback are as the listing `l` before says (`updateUntil`); the answers the client got later, and the trees it holds,
are right for the record `b`, where the call stands for an update with the quiet callback. -/
def RescuedRight (f : Nat) (cb : List (IPNet × V) → IPNet → V → Option (V × Bool)) (n : IPNet) (l : Option (List (IPNet × HV V))) (b : Book (UOp V)) (more : List (TOp (UOp V) NetQ))
    (x : Option (List (IPNet × V)) × List (Option (Reply (HV V) (IPNet × HV V))) × List Ptr) (h : Heap (IPD V)) : Prop :=
  (∀ g p l', IsNet n g p → l = some (l'.map fun p => (p.1, .user p.2)) → (∃ y ∈ l', IsCanonNet y.1 g p) → x.1 = (updateUntil cb g p l' []).2) ∧
    b.Answers UpdRight more x.2.1 ∧ x.2.2.length = (b.after more).vs.length ∧
    ∀ (j : Nat) q v, x.2.2[j]? = some q → (b.after more).vs[j]? = some v → UpdObserves f h q v.2

/-- C105: after any legal history, UpdateDescendants on a tree the client alone holds, with any callback; if it panics the client recovers; it goes on with any legal script.  However the steps
of the client and of the goroutines interleave: nothing else panics, the client is never stuck, it ends, it never changes a field a goroutine is about to read; all its answers and trees are
right. -/
theorem C105_rescued {f rounds : Nat} (hf : 66 ≤ f) (hr : 2 ^ (f + 1) ≤ rounds) (ops : List (SOp (UOp V)))
    (hl : (Book.init : Book (UOp V)).LegalAll2 (fun _ o => isCall o) (uInpOk true) ops) (i : Nat) (n : IPNet) (cb : List (IPNet × V) → IPNet → V → Option (V × Bool))
    (hi : (Book.init.exec ops).Legal2 (fun _ o => isCall o) (uInpOk true) (.inp i (.update n (quiet cb)))) (more : List (TOp (UOp V) NetQ))
    (hm : let b := (Book.init.exec ops).step (.inp i (.update n (quiet cb))); b.LegalT (fun _ o => isCall o) (uInpOk true) b.next more) :
    ∃ s, OStore.init.exec (ipuImpl true f) ops = .ok s ∧ ∀ r, s.roots[i]? = some r →
      Rescued ipFields (recovering f rounds cb n r more s.roots) s.heap
        (RescuedRight f cb n (answer (EnumerateTreeP f r) s.heap) ((Book.init.exec ops).step (.inp i (.update n (quiet cb)))) more) := by
  have hI := ipuImpl_lawful (V := V) true hf (ops.length + 1 + more.length)
  obtain ⟨s, e, i1⟩ := oexec_inv hI (oinv_init _) ops (by omega) hl
  refine ⟨s, e, fun r hr' => ?_⟩
  obtain ⟨s1, e1, i2, _⟩ := ostep_inv hI (by omega) i1 (.inp i (.update n (quiet cb))) hi (by simp [OwnInp])
  simp only [OStore.step, hr'] at e1
  cases e2 : (UpdateDescendantsP f (logged (quiet cb)) r (some n) []).run s.heap with
  | error x => simp [ipuImpl, uinpP, Prog.run_bind, e2] at e1
  | ok y =>
    obtain ⟨x0, h1⟩ := y
    have e3 : s1 = ⟨h1, s.roots⟩ := by
      simp only [ipuImpl, uinpP, Prog.run_bind, e2] at e1
      cases e1
      rw [set_same hr']
    subst e3
    obtain ⟨N, hN⟩ := updM_does (logged (quiet cb)) hr i1.ok e2 [] (by simp)
    have hw := session_wp hI (netRead f) UpdRight (fun q h r l F _ ho => updRead_ok hf q h r l F ho) more (by omega) i2.rebase hm
    refine rescued (dead := fun s => panicked cb s = true) (o0 := if panicked cb x0 = true then none else some x0) (updM_cut (quiets cb) f rounds r (some n) (by simp [panicked, panickedAt])) hN i2.ok
      ?_ ?_
    · by_cases d : panicked cb x0 = true
      · exact .inl ⟨d, if_pos d⟩
      · exact .inr ⟨d, if_neg d⟩
    · simp only [wp_bind, wp_pure]
      refine wp_conseq hw ?_
      rintro x h' ⟨x1, T, _, hk, a1, a2, a3, _⟩
      refine ⟨fun g p l' hn hl' hx => ?_, x1, ?_, fun j q v hq hv => ?_⟩
      · obtain ⟨s2, e5, h5⟩ := C85_update hf ops hl i (fun v hv => (hi v hv).2) cb hn
        rw [e] at e5
        cases e5
        obtain ⟨l, hl2, h6⟩ := h5 r hr'
        rw [hl2, Option.some.injEq] at hl'
        have hll : l = l' := by
          refine (List.map_inj_right fun a b e => ?_).1 hl'
          simp only [Prod.mk.injEq, HV.user.injEq] at e
          exact Prod.ext e.1 e.2
        subst hll
        obtain ⟨h7, e6, _⟩ := h6 hx
        rcases (update_follows (quiets cb) f r (some n) (by simp [panicked, panickedAt])).run e2 with ⟨d, e4⟩ | ⟨d, e4⟩
        · rw [e4] at e6
          cases e8 : (updateUntil cb g p l []).2 with
          | none => simp [e8] at e6
          | some log =>
            simp only [e8, Prod.mk.injEq, Except.ok.injEq] at e6
            rw [if_neg d, e6.1]
        · rw [e4] at e6
          cases e8 : (updateUntil cb g p l []).2 with
          | none => simp [if_pos d]
          | some log => simp [e8] at e6
      · simp only at a1; simp [a1, a2]
      · simp only at a1
        rw [a1, List.getElem?_map] at hq
        rw [a2, List.getElem?_map] at hv
        cases hT : T[j]? with
        | none => simp [hT] at hq
        | some u =>
          simp only [hT, Option.map_some, Option.some.injEq] at hq hv
          subst hq hv
          exact updObserves_ok hf _ _ _ _ (a3 u (List.mem_of_getElem? hT)).1

/-! ## Concrete cases -/

/-- 10.0.0.0/8 and four networks below it. -/
def rescueTree : List (SOp (UOp Nat)) :=
  [.fresh, .inp 0 (.call (.insertNet (some (net4 10 0 0 0 8)) 1)), .inp 0 (.call (.insertNet (some (net4 10 1 0 0 16)) 2)),
   .inp 0 (.call (.insertNet (some (net4 10 2 0 0 16)) 3)), .inp 0 (.call (.insertNet (some (net4 10 3 0 0 16)) 4)),
   .inp 0 (.call (.insertNet (some (net4 10 4 0 0 16)) 5))]

/-- The client with `thirdPanics` (`Verif/Props/CbPanic.lean`) at its start. -/
def rescueStart (more : List (TOp (UOp Nat) NetQ)) :
    Option (Sys (IPD Nat) Fields Addr (Option (List (IPNet × Nat)) × List (Option (Reply (HV Nat) (IPNet × HV Nat))) × List Ptr)) :=
  match OStore.init.exec (ipuImpl true 66) rescueTree with
  | .error _ => none
  | .ok s => s.roots[0]?.map fun r => ⟨s.heap, recovering 66 (2 ^ 67) thirdPanics (net4 10 0 0 0 8) r more s.roots, []⟩

/-- After the panic: derive a tree from the updated one, list both, start a tree, insert into it in place, list it. -/
def rescueMore : List (TOp (UOp Nat) NetQ) :=
  [.call (.cow 0 (.call (.insertNet (some (net4 10 5 0 0 16)) 6))), .read 0 .list, .read 1 .list, .call .fresh,
   .call (.inp 2 (.call (.insertNet (some (net4 10 6 0 0 16)) 7))), .read 2 .list]

/-- Whether the call panicked, the values listed, and how many goroutines have not returned. -/
def rescueOutcome (eager : Bool) : Option (Bool × List (List Nat) × Nat) :=
  (rescueStart rescueMore).bind fun s =>
    let e := drive ipFields eager 3000 s
    match e.main with
    | .ret x => some (x.1.isNone, x.2.1.map fun | some (.list l) => l.map fun y => (match y.2 with | .user v => v | .sub _ => 0) | _ => [], (e.kids.filter Proc.live).length)
    | _ => none

/-- The two values given to the callback before its panic are replaced; one goroutine stays.  The same in both schedules. -/
example : ∀ eager, rescueOutcome eager = some (true, [[1, 12, 13, 4, 5], [1, 12, 13, 4, 5, 6], [7]], 1) := by decide +kernel

/-- The case meets the hypotheses. -/
example : (Book.init : Book (UOp Nat)).LegalAll2 (fun _ o => isCall o) (uInpOk true) rescueTree := by
  refine ⟨trivial, ?_, ?_, ?_, ?_, ?_, trivial⟩ <;>
  · intro v hv
    refine ⟨⟨rfl, trivial⟩, fun j u hj hu => ?_⟩
    rcases j with _ | j
    · exact absurd rfl hj
    · simp [Book.init, Book.step] at hu

example : (Book.init.exec rescueTree).Legal2 (fun _ o => isCall o) (uInpOk true) (.inp 0 (.update (net4 10 0 0 0 8) (quiet thirdPanics))) := by
  intro v hv
  refine ⟨⟨rfl, fun M g q hM hq hz => .inl (IsNet.unique isNet8 hq).1.symm⟩, fun j u hj hu => ?_⟩
  rcases j with _ | j
  · exact absurd rfl hj
  · simp [Book.init, Book.step, Book.exec, rescueTree] at hu

example : let b := (Book.init.exec rescueTree).step (.inp 0 (.update (net4 10 0 0 0 8) (quiet thirdPanics))); b.LegalT (fun _ o => isCall o) (uInpOk true) b.next rescueMore := by
  refine ⟨⟨fun v hv => trivial, trivial⟩, ⟨trivial, trivial⟩, ⟨fun v hv => ?_, fun v hv => ?_⟩, trivial⟩
  · simp [Book.init, Book.step, Book.exec, rescueTree] at hv
    subst hv
    refine ⟨⟨rfl, trivial⟩, fun j u hj hu => ?_⟩
    rcases j with _ | _ | _ | j <;> simp [Book.init, Book.step, Book.exec, rescueTree] at hu hj <;> subst hu <;> decide
  · simp [Book.init, Book.step, Book.exec, rescueTree] at hv
    subst hv
    decide

/-! ## Why not in place into the old trees -/

/-- The client is about to change fields that a goroutine is about to read. -/
def racingFields {α : Type} (t : Sys (IPD Nat) Fields Addr α) : Bool := match t.main with
  | .write a c _ => t.kids.any fun
    | .mk (.read b _) _ => a == b && (t.heap.mem a).any fun c0 => ipFields c0 != ipFields c
    | _ => false
  | _ => false

/-- After the panic the client inserts in place into the tree it updated; nobody else holds it. -/
def rescueInPlace : List (TOp (UOp Nat) NetQ) := [.call (.inp 0 (.call (.insertNet (some (net4 10 3 3 0 24)) 6)))]

theorem rescueInPlace_races : (rescueStart rescueInPlace).map (fun s => racingFields (drive ipFields true 40 s)) = some true := by decide +kernel

/-- C105, the restriction is needed: an insertion in place into the tree on which the callback panicked may change the children of a node the goroutine left behind is reading. -/
theorem C105_inplace_races : ∃ s r, OStore.init.exec (ipuImpl true 66) rescueTree = .ok s ∧ s.roots[0]? = some r ∧
    ∃ n t a c k c0 p, Spec.Runs (Step ipFields) n ⟨s.heap, recovering 66 (2 ^ 67) thirdPanics (net4 10 0 0 0 8) r rescueInPlace s.roots, []⟩ t ∧
      t.main = .write a c k ∧ p ∈ t.kids ∧ p.AtRead a ∧ t.heap.mem a = some c0 ∧ ipFields c0 ≠ ipFields c := by
  have h := rescueInPlace_races
  unfold rescueStart at h
  split at h
  · cases h
  · rename_i s e
    cases hr : s.roots[0]? with
    | none => simp [hr] at h
    | some r =>
      simp only [hr, Option.map_some, Option.some.injEq] at h
      refine ⟨s, r, e, hr, ?_⟩
      obtain ⟨m, hm⟩ := drive_runs (φ := ipFields) (eager := true) 40 (.refl (⟨s.heap, recovering 66 (2 ^ 67) thirdPanics (net4 10 0 0 0 8) r rescueInPlace s.roots, []⟩ : Sys (IPD Nat) Fields Addr _))
      generalize drive ipFields true 40 _ = t at h hm
      unfold racingFields at h
      split at h
      · rename_i a c k e1
        rw [List.any_eq_true] at h
        obtain ⟨p, hp, h⟩ := h
        split at h
        · rw [Bool.and_eq_true] at h
          obtain ⟨h1, h2⟩ := h
          have := LawfulBEq.eq_of_beq h1
          subst this
          cases h3 : t.heap.mem a with
          | none => simp [h3] at h2
          | some c0 =>
            simp only [h3, Option.any_some, bne_iff_ne] at h2
            exact ⟨m, t, a, c, k, c0, _, hm, e1, hp, .here, h3, h2⟩
        · cases h
      · cases h

end Verif.Props
