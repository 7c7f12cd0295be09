import Verif.Pipe.Exec
import Verif.Pipe.AskedUpdate
import Verif.Props.Rescue

/-!
# Property C106: a callback of UpdateDescendants that asks the trees

The callback may ask any held tree, the one being updated included, before it answers, and may choose its questions and its result by the answers.  The goroutines of the loop run beside it.
-/

namespace Verif.Props
open Verif Verif.Heap Verif.Heap.Prog Verif.Pipe Verif.IP Verif.IPHeap
variable {V : Type} [Inhabited V]

/-- A question to the tree with this number. -/
def askTree (f : Nat) (roots : List Ptr) (k : Nat × NetQ) : Prog (IPD V) (Option (Reply (HV V) (IPNet × HV V))) :=
  match roots[k.1]? with
  | none => pure none
  | some q => netRead f k.2 q >>= fun x => pure (some x)

/-- Calls of a callback that asks held trees. -/
abbrev AskedCall (V : Type) := CallRec V (Nat × NetQ) (Option (Reply (HV V) (IPNet × HV V)))

/-- Callbacks that ask held trees; they may also remember the calls before. -/
abbrev AskingCb (V : Type) := List (AskedCall V) → IPNet → V → Inquiry (Nat × NetQ) (Option (Reply (HV V) (IPNet × HV V))) (V × Bool)

/-- These questions and answers, and then this result, are what the inquiry prescribes. -/
def Told {K A β : Type} : Inquiry K A β → List (K × A) → β → Prop
  | .done x, [], y => y = x
  | .ask k next, (k', a) :: l, y => k' = k ∧ Told (next a) l y
  | _, _, _ => False

/-- The answer to a question to a tree of the record. -/
def AnsweredRight (b : Book (UOp V)) (y : (Nat × NetQ) × Option (Reply (HV V) (IPNet × HV V))) : Prop :=
  match b.vs[y.1.1]? with
  | none => y.2 = none
  | some v => ∃ z, y.2 = some z ∧ UpdRight y.1.2 v.2 z

/-- What has come of the call: the `m`-th call of the callback asked what it prescribes, got answers that are right for trees in which the changes of the `m` calls before are made and no others,
and its result is what it prescribes; the calls are those of the listing `l` before; in the end all changes asked for are made, and no others. -/
def AskedRight (f : Nat) (cb : AskingCb V) (i : Nat) (n : IPNet) (l : Option (List (IPNet × HV V))) (b : Book (UOp V)) (roots : List Ptr) (t : List (AskedCall V)) (h : Heap (IPD V)) : Prop :=
  (∀ m e, t[m]? = some e → Told (cb (t.take m) e.key e.val) e.heard e.res ∧ ∀ y ∈ e.heard, AnsweredRight (b.step (.inp i (.update n (replay (t.take m))))) y) ∧
    (∀ g p l', IsNet n g p → l = some (l'.map fun p => (p.1, .user p.2)) → (∃ y ∈ l', IsCanonNet y.1 g p) →
      t.map (fun e => (e.key, e.val)) = (updateBelow (logged (replay t)) g p l' []).2) ∧
    ∀ (j : Nat) q v, roots[j]? = some q → (b.step (.inp i (.update n (replay t)))).vs[j]? = some v → UpdObserves f h q v.2

/-! ## Questioning -/

theorem peeks_bind {D α β : Type} {h : Heap D} {p : Prog D α} {k : α → Prog D β} {x : α} {y : β} {r r' : Nat} (hp : Peeks h p x r) (hk : Peeks h (k x) y r') :
    ∃ r2, Peeks h (p >>= k) y r2 := by
  show ∃ r2, Peeks h (p.bind k) y r2
  induction hp with
  | ret => exact ⟨_, hk⟩
  | read hc _ ih =>
    obtain ⟨r2, h2⟩ := ih hk
    exact ⟨_, .read hc h2⟩

theorem peeks_map {D α β : Type} {h : Heap D} {p : Prog D α} {g : α → β} {y : β} {r : Nat} (hp : Peeks h (p >>= fun x => pure (g x)) y r) : ∃ x, y = g x := by
  change Peeks h (p.bind fun x => .ret (g x)) y r at hp
  induction p generalizing r with
  | ret x => cases hp with | ret => exact ⟨x, rfl⟩
  | stop e => cases hp
  | read a c ih => cases hp with | read _ hk => exact ih _ hk
  | write a c q _ => cases hp
  | alloc c q _ => cases hp

/-- A program that only reads, and does not panic. -/
theorem peeks_of {D α : Type} {p : Prog D α} (ro : p.ReadOnly) {Q : α → Heap D → Prop} {h : Heap D} (hw : wp (fun _ => False) p Q h) : ∃ x r, Peeks h p x r ∧ Q x h := by
  induction p with
  | ret x => exact ⟨x, 0, .ret, hw⟩
  | stop e => exact hw.elim
  | read a k ih =>
    obtain ⟨c, hc, hk⟩ := hw
    obtain ⟨x, r, h1, h2⟩ := ih c (ro c) hk
    exact ⟨x, r + 1, .read hc h1, h2⟩
  | write a c q _ => exact ro.elim
  | alloc c q _ => exact ro.elim

omit [Inhabited V] in
theorem netRead_readOnly (f : Nat) (q : NetQ) (r : Ptr) : (netRead (V := V) f q r).ReadOnly := by
  cases q with
  | get n => exact .bind (GetByNetP_readOnly f r n) fun _ => .pure _
  | list => exact .bind (EnumerateTreeP_readOnly f r) fun _ => .pure _

omit [Inhabited V] in
theorem callP_honest {K A : Type} (Rd : K → Prog (IPD V) A) (cb : List (CallRec V K A) → IPNet → V → Inquiry K A (V × Bool)) : Honest (callP Rd cb) := by
  intro t key v h e r hp
  obtain ⟨x, rfl⟩ := peeks_map hp
  rfl

/-- All questions of an inquiry are answered. -/
theorem inquiry_told {D K A β : Type} {Rd : K → Prog D A} {R : K × A → Prop} {h : Heap D} (hR : ∀ k, ∃ a r, Peeks h (Rd k) a r ∧ R (k, a)) (q : Inquiry K A β) (l : List (K × A)) :
    ∃ l2 x r, Peeks h (q.prog Rd l) (l ++ l2, x) r ∧ Told q l2 x ∧ ∀ y ∈ l2, R y := by
  induction q generalizing l with
  | done x => exact ⟨[], x, 0, by simp only [List.append_nil]; exact .ret, rfl, by simp⟩
  | ask k next ih =>
    obtain ⟨a, r, h1, h2⟩ := hR k
    obtain ⟨l2, x, r2, h3, h4, h5⟩ := ih a (l ++ [(k, a)])
    rw [List.append_assoc, List.singleton_append] at h3
    obtain ⟨r3, h6⟩ := peeks_bind (k := fun a => (next a).prog Rd (l ++ [(k, a)])) h1 h3
    exact ⟨(k, a) :: l2, x, r3, h6, ⟨rfl, h4⟩, by simpa [h2] using h5⟩

/-- One call of the callback, while all trees are as the record says. -/
theorem call_answered {f n0 base m : Nat} (hf : 66 ≤ f) {s : OStore (IPD V) Ptr} {b : Book (UOp V)} (hi : OInv (ipuImpl true f) n0 base m s b) (cb : AskingCb V) (t : List (AskedCall V))
    (key : IPNet) (v : V) :
    ∃ e r, Peeks s.heap (callP (askTree f s.roots) cb t key v) e r ∧ e.key = key ∧ e.val = v ∧ Told (cb t key v) e.heard e.res ∧ ∀ y ∈ e.heard, AnsweredRight b y := by
  obtain ⟨T, _, _, h1, h2, h3, _⟩ := hi
  have hR : ∀ k, ∃ a r, Peeks s.heap (askTree f s.roots k) a r ∧ AnsweredRight b (k, a) := by
    intro k
    unfold askTree AnsweredRight
    simp only
    rw [h1, h2, List.getElem?_map, List.getElem?_map]
    cases hT : T[k.1]? with
    | none => exact ⟨none, 0, .ret, rfl⟩
    | some u =>
      have ho := (h3 u (List.mem_of_getElem? hT)).1
      obtain ⟨x, r, p1, p2⟩ := peeks_of (netRead_readOnly f k.2 u.1.1) (updRead_ok hf k.2 _ _ _ _ ho)
      obtain ⟨r2, p3⟩ := peeks_bind (k := fun x => pure (some x)) p1 .ret
      exact ⟨some x, r2, p3, x, rfl, p2.2⟩
  obtain ⟨l2, x, r, p1, p2, p3⟩ := inquiry_told hR (cb t key v) []
  obtain ⟨r2, p4⟩ := peeks_bind (k := fun x => pure (⟨key, v, x.1, x.2⟩ : AskedCall V)) p1 .ret
  exact ⟨_, r2, p4, rfl, rfl, by simpa using p2, by simpa using p3⟩

/-! ## The property -/

/-- C106: after any legal history, UpdateDescendants on a tree the client alone holds, with any callback that asks held trees, the updated one included.  However the steps of the caller and
of the goroutines interleave: nothing panics, nobody is stuck, the call ends, the caller never changes a field a goroutine is about to read; questions, answers, calls and trees are as
`AskedRight` says. -/
theorem C106_asking {f rounds : Nat} (hf : 66 ≤ f) (hr : 2 ^ (f + 1) ≤ rounds) (ops : List (SOp (UOp V)))
    (hl : (Book.init : Book (UOp V)).LegalAll2 (fun _ o => isCall o) (uInpOk true) ops) (i : Nat) (n : IPNet) (cb : AskingCb V)
    (hi : ∀ c, (Book.init.exec ops).Legal2 (fun _ o => isCall o) (uInpOk true) (.inp i (.update n c))) :
    ∃ s, OStore.init.exec (ipuImpl true f) ops = .ok s ∧ ∀ r, s.roots[i]? = some r →
      Ends ipFields (updQ (callP (askTree f s.roots) cb) f rounds r (some n)) s.heap
        (AskedRight f cb i n (answer (EnumerateTreeP f r) s.heap) (Book.init.exec ops) s.roots) ∧
      ∀ m t a c k, Spec.Runs (Step ipFields) m ⟨s.heap, updQ (callP (askTree f s.roots) cb) f rounds r (some n), []⟩ t → t.main = .write a c k →
        ∀ p ∈ t.kids, p.AtRead a → ∃ c0, t.heap.mem a = some c0 ∧ ipFields c0 = ipFields c := by
  have hI := ipuImpl_lawful (V := V) true hf (ops.length + 1)
  obtain ⟨s, e, i1⟩ := oexec_inv hI (oinv_init _) ops (by omega) hl
  refine ⟨s, e, fun r hr' => ?_⟩
  -- the call with the results from a list
  have hx : ∀ t : List (AskedCall V), ∃ y : List (IPNet × V) × Heap (IPD V), (UpdateDescendantsP f (logged (replay t)) r (some n) []).run s.heap = .ok y ∧
      OInv (ipuImpl true f) 0 0 (0 + ops.length + 1) ⟨y.2, s.roots⟩ ((Book.init.exec ops).step (.inp i (.update n (replay t)))) := by
    intro t
    obtain ⟨s1, e1, i2, _⟩ := ostep_inv hI (by omega) i1 (.inp i (.update n (replay t))) (hi _) (by simp [OwnInp])
    simp only [OStore.step, hr'] at e1
    cases e2 : (UpdateDescendantsP f (logged (replay t)) r (some n) []).run s.heap with
    | error x => simp [ipuImpl, uinpP, Prog.run_bind, e2] at e1
    | ok y =>
      refine ⟨y, rfl, ?_⟩
      have e3 : s1 = ⟨y.2, s.roots⟩ := by
        simp only [ipuImpl, uinpP, Prog.run_bind, e2] at e1
        cases e1
        rw [set_same hr']
      exact e3 ▸ i2
  obtain ⟨Y, hY⟩ := Classical.axiomOfChoice hx
  have hc : ∀ t : List (AskedCall V), ∃ er : AskedCall V × Nat, ∀ key v, (Y t).1[t.length]? = some (key, v) → Peeks (Y t).2 (callP (askTree f s.roots) cb t key v) er.1 er.2 ∧
      Told (cb t er.1.key er.1.val) er.1.heard er.1.res ∧ ∀ y ∈ er.1.heard, AnsweredRight ((Book.init.exec ops).step (.inp i (.update n (replay t)))) y := by
    intro t
    cases hk : (Y t).1[t.length]? with
    | none => exact ⟨(⟨n, default, [], (default, false)⟩, 0), fun _ _ h => by cases h⟩
    | some kv =>
      obtain ⟨e, r, p1, p2, p3, p4, p5⟩ := call_answered hf (hY t).2 cb t kv.1 kv.2
      refine ⟨(e, r), fun key v h => ?_⟩
      cases h
      exact ⟨p1, by rw [p2, p3]; exact p4, p5⟩
  obtain ⟨er, her⟩ := Classical.axiomOfChoice hc
  obtain ⟨hE, hrace⟩ := asked (φ := ipFields) (base := 0) (G := fun t => ∃ key v, (Y t).1[t.length]? = some (key, v)) (H := fun t => (Y t).2) (X' := fun t => (Y t).1) (nxt := fun t => (er t).1) (cost := fun t => (er t).2)
    (fun t => updM_does (logged (replay t)) hr i1.ok (hY t).1 [] (by simp))
    (fun t p => by rintro ⟨key, v, h, rfl⟩; exact ⟨⟨key, v, h⟩, _, Nat.le_refl _, (her t key v h).1⟩) (updQ_asks (callP_honest (askTree f s.roots) cb) f rounds r (some n))
  refine ⟨hE.mono ?_, hrace⟩
  rintro t h ⟨rfl, hU, hF⟩
  refine ⟨fun m e hm => ?_, fun g p l' hn hl' hx => ?_, fun j q v hq hv => ?_⟩
  · have hlt : m < t.length := by
      by_cases k : m < t.length
      · exact k
      · rw [List.getElem?_eq_none (by omega)] at hm; cases hm
    obtain ⟨h1, key, v, h2⟩ := hU m hlt
    rw [hm, Option.some.injEq] at h1
    subst h1
    exact (her _ key v h2).2
  · obtain ⟨s2, e5, h5⟩ := C60_update hf ops hl i (fun v hv => (hi (replay t) v hv).2) (logged (replay t)) hn []
    rw [e] at e5
    cases e5
    obtain ⟨l, hl2, h6⟩ := h5 r hr'
    rw [hl2, Option.some.injEq] at hl'
    have hll : l = l' := by
      refine (List.map_inj_right fun a b e => ?_).1 hl'
      simp only [Prod.mk.injEq, HV.user.injEq] at e
      exact Prod.ext e.1 e.2
    subst hll
    obtain ⟨h7, _, e6, _⟩ := h6 hx
    rw [(hY t).1] at e6
    rw [Except.ok.injEq] at e6
    exact hF.symm.trans (by rw [e6])
  · obtain ⟨T, _, _, h1, h2, h3, _⟩ := (hY t).2
    simp only at h1
    rw [h1, List.getElem?_map] at hq
    rw [h2, List.getElem?_map] at hv
    cases hT : T[j]? with
    | none => simp [hT] at hq
    | some u =>
      simp only [hT, Option.map_some, Option.some.injEq] at hq hv
      subst hq hv
      exact updObserves_ok hf _ _ _ _ (h3 u (List.mem_of_getElem? hT)).1

/-! ## A concrete case -/

/-- The callback asks the updated tree for 10.1.0.0/16, adds the answer to the value, and lists the tree when it sees 4. -/
def addFirst : AskingCb Nat := fun _ _ v => .ask (0, .get (some (net4 10 1 0 0 16))) fun
  | some (.val (some (.user x))) => if v = 4 then .ask (0, .list) fun _ => .done (v + x, true) else .done (v + x, true)
  | _ => .done (v, false)

/-- The call on 10.0.0.0/8 of the tree `rescueTree` (`Verif/Props/Rescue.lean`), and then a listing. -/
def askedStart : Option (Sys (IPD Nat) Fields Addr (List (AskedCall Nat)) × Ptr) :=
  match OStore.init.exec (ipuImpl true 66) rescueTree with
  | .error _ => none
  | .ok s => s.roots[0]?.map fun r => (⟨s.heap, updQ (callP (askTree 66 s.roots) addFirst) 66 (2 ^ 67) r (some (net4 10 0 0 0 8)), []⟩, r)

/-- Values in an answer. -/
def answerVals : Option (Reply (HV Nat) (IPNet × HV Nat)) → List Nat
  | some (.val (some (.user x))) => [x]
  | some (.list l) => l.map fun y => (match y.2 with | .user v => v | .sub _ => 0)
  | _ => []

/-- Values given to the callback with the answers it heard, and the values listed in the end. -/
def askedOutcome (eager : Bool) : Option (List (Nat × List (List Nat)) × List Nat) :=
  askedStart.bind fun s =>
    let e := drive ipFields eager 5000 s.1
    match e.main with
    | .ret t => some (t.map fun c => (c.val, c.heard.map fun y => answerVals y.2), answerVals ((answer (EnumerateTreeP 66 s.2) e.heap).map .list))
    | _ => none

/-- The second call hears the value the first one has set; the listing in the third shows the changes of the first two.  The same in both schedules. -/
example : ∀ eager, askedOutcome eager = some ([(2, [[2]]), (3, [[4]]), (4, [[4], [1, 4, 7, 4, 5]]), (5, [[4]])], [1, 4, 7, 8, 9]) := by decide +kernel

/-- The case meets the hypotheses (for the history see `Verif/Props/Rescue.lean`). -/
example : ∀ c, (Book.init.exec rescueTree).Legal2 (fun _ o => isCall o) (uInpOk true) (.inp 0 (.update (net4 10 0 0 0 8) c)) := by
  intro c v hv
  refine ⟨⟨rfl, fun M g q hM hq hz => .inl (IsNet.unique isNet8 hq).1.symm⟩, fun j u hj hu => ?_⟩
  rcases j with _ | j
  · exact absurd rfl hj
  · simp [Book.init, Book.step, Book.exec, rescueTree] at hu

/-- What the callback prescribes, with answers. -/
example : Told (addFirst [] (net4 10 1 0 0 16) 2) [((0, .get (some (net4 10 1 0 0 16))), some (.val (some (.user 2))))] (4, true) := ⟨rfl, rfl⟩
example : ¬ Told (addFirst [] (net4 10 1 0 0 16) 2) [] (4, true) := id

end Verif.Props
