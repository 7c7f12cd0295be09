import Verif.IPHeap.Shared
import Verif.Props.Goroutines
import Verif.Props.IptreeUpdate

/-!
# Property C60: UpdateDescendants works in place

Histories are those of `IptreeHeap.lean` with `UpdateDescendants` among the in-place calls.  `NetMeans ops M` is the meaning of the chain
of calls `ops` of a tree: the networks `M` it should hold.  An update is covered on an exclusively held tree that is not nil, for any
network but the exception of C43 (`updOk`).
-/

namespace Verif.Props
open Verif Verif.Heap Verif.Heap.Prog Verif.IP Verif.IPHeap
variable {V : Type} [Inhabited V]

/-- All observations through a tree are those of the networks `ops` stands for. -/
def UpdObserves (f : Nat) (h : Heap (IPD V)) (r : Ptr) (ops : List (UOp V)) : Prop :=
  (∃ M, NetMeans ops M) ∧ ∀ M, NetMeans ops M →
    (∀ n g p, IsNet n g p → ∃ x, answer (GetByNetP f r (some n)) h = some (x.map .user) ∧ PMap.IsLongestMatch (M g) p x) ∧
    (∀ n, (∀ g p, ¬ IsNet n g p) → answer (GetByNetP f r (some n)) h = some none) ∧ answer (GetByNetP f r none) h = some none ∧
    ∃ l : List (IPNet × V), answer (EnumerateTreeP f r) h = some (l.map fun p => (p.1, .user p.2)) ∧ NetLists M l

omit [Inhabited V] in
theorem getByNet_any {t : Option (Tree V)} (h : WFT (base t)) {n : IPNet} {g : Fam} {p : List Bool} (hn : IsNet n g p) :
    ∃ x, GetByNet t (some n) = x.map .user ∧ PMap.IsLongestMatch (denT (base t) g) p x := by
  cases t with
  | none => exact ⟨none, rfl, .inr ⟨rfl, fun q _ => denT_new g q⟩⟩
  | some t => exact getByNet_ok h hn

omit [Inhabited V] in
theorem lists_any {t : Option (Tree V)} (h : WFT (base t)) : NetLists (denT (base t)) (Enumerate t) := by
  cases t with
  | none =>
    refine ⟨List.Pairwise.nil, fun x hx => (List.not_mem_nil hx).elim, fun g p v e => ?_⟩
    have := denT_new (V := V) g p
    rw [show denT (base (none : Option (Tree V))) g p = none from this] at e
    cases e
  | some t => exact lists_enumerate h

omit [Inhabited V] in
theorem updObserves_of_rep {f : Nat} (hf : 66 ≤ f) {h : Heap (IPD V)} {r : Ptr} {t : Option (Tree V)} {F : Addr → Prop} (hT : TRep h r t F)
    {ops : List (UOp V)} (hh : Holds t ops) : UpdObserves f h r ops := by
  refine ⟨hh.2.1, fun M hM => ?_⟩
  obtain rfl := hh.2.2 M hM
  refine ⟨fun n g p hn => ?_, fun n hn => get_answer (x := none) hf hT (getByNet_bad hn), get_answer (x := none) hf hT (by cases t <;> rfl),
    Enumerate t, answer_of_wp (W := fun _ => False) (EnumerateTreeP_spec hf hT), lists_any hh.1⟩
  obtain ⟨x, h1, h2⟩ := getByNet_any hh.1 hn
  exact ⟨x, get_answer hf hT h1, h2⟩

omit [Inhabited V] in
theorem same_answers {f : Nat} (hf : 66 ≤ f) {h h' : Heap (IPD V)} {r : Ptr} {t : Option (Tree V)} {F F' : Addr → Prop} (hT : TRep h r t F)
    (hT' : TRep h' r t F') (hw : WFT (base t)) : (∀ n, answer (GetByNetP f r n) h' = answer (GetByNetP f r n) h) ∧
      answer (EnumerateTreeP f r) h' = answer (EnumerateTreeP f r) h := by
  refine ⟨fun n => ?_, by rw [answer_of_wp (W := fun _ => False) (EnumerateTreeP_spec hf hT), answer_of_wp (W := fun _ => False) (EnumerateTreeP_spec hf hT')]⟩
  have : ∃ x : Option V, GetByNet t n = x.map .user := by
    cases n with
    | none => exact ⟨none, by cases t <;> rfl⟩
    | some n =>
      by_cases hn : ∃ g p, IsNet n g p
      · obtain ⟨g, p, hn⟩ := hn
        obtain ⟨x, h1, _⟩ := getByNet_any hw hn
        exact ⟨x, h1⟩
      · exact ⟨none, getByNet_bad fun g p q => hn ⟨g, p, q⟩⟩
  obtain ⟨x, hx⟩ := this
  rw [get_answer hf hT hx, get_answer hf hT' hx]

/-- C60: in every legal history of copy-on-write calls, in-place insertions and updates no call panics, and every held tree shows
exactly the networks its own chain of calls stands for: updates of one tree are not seen through trees of another origin. -/
theorem C60_history (st : Bool) {f : Nat} (hf : 66 ≤ f) (ops : List (SOp (UOp V)))
    (hl : (Book.init : Book (UOp V)).LegalAll2 (fun _ o => isCall o) (uInpOk st) ops) :
    ∃ s, OStore.init.exec (ipuImpl st f) ops = .ok s ∧ s.roots.length = (Book.init.exec ops).vs.length ∧
      ∀ (i : Nat) r v, s.roots[i]? = some r → (Book.init.exec ops).vs[i]? = some v → UpdObserves f s.heap r v.2 := by
  obtain ⟨s, e, _, h1, h2⟩ := obj_history (ipuImpl_lawful (V := V) st hf ops.length) ops (Nat.le_refl _) hl
  refine ⟨s, e, h1, fun i r v hr hv => ?_⟩
  obtain ⟨_, F, t, hT, hh, _⟩ := h2 i r v hr hv
  exact updObserves_of_rep hf hT hh

/-- C60: after any legal history, UpdateDescendants with any callback (`σ` is its state, for instance a log of its calls) on an
exclusively held tree and a network the tree lists ends without panic.  The callback has been run on exactly the listed networks
strictly below, in listing order, with their values; the tree then lists the values it asked to replace replaced and everything
else as before; the Tree struct itself is not written and all other held trees answer every query as before. -/
theorem C60_update {σ : Type} {f : Nat} (hf : 66 ≤ f) (ops : List (SOp (UOp V)))
    (hl : (Book.init : Book (UOp V)).LegalAll2 (fun _ o => isCall o) (uInpOk true) ops) (i : Nat)
    (hi : ∀ (v : Nat × List (UOp V)), (Book.init.exec ops).vs[i]? = some v → ∀ (j : Nat) u, j ≠ i → (Book.init.exec ops).vs[j]? = some u → u.1 ≠ v.1)
    (cb : σ → IPNet → V → (V × Bool) × σ) {n : IPNet} {g : Fam} {p : List Bool} (hn : IsNet n g p) (s0 : σ) :
    ∃ s, OStore.init.exec (ipuImpl true f) ops = .ok s ∧ ∀ r, s.roots[i]? = some r →
      ∃ l : List (IPNet × V), answer (EnumerateTreeP f r) s.heap = some (l.map fun p => (p.1, .user p.2)) ∧
        ((∃ x ∈ l, IsCanonNet x.1 g p) → ∃ h' a, (UpdateDescendantsP f cb r (some n) s0).run s.heap = .ok ((updateBelow cb g p l s0).2, h') ∧
          answer (EnumerateTreeP f r) h' = some ((updateBelow cb g p l s0).1.map fun p => (p.1, .user p.2)) ∧
          r = some a ∧ h'.mem a = s.heap.mem a ∧
          ∀ (j : Nat) q, j ≠ i → s.roots[j]? = some q →
            (∀ n, answer (GetByNetP f q n) h' = answer (GetByNetP f q n) s.heap) ∧ answer (EnumerateTreeP f q) h' = answer (EnumerateTreeP f q) s.heap) := by
  obtain ⟨s, e, T, _, hk, h1, h2, h3, h4⟩ := oexec_inv (ipuImpl_lawful (V := V) true hf (ops.length + 1)) (oinv_init _) ops (by omega) hl
  refine ⟨s, e, fun r hr => ?_⟩
  rw [h1, List.getElem?_map] at hr
  cases hT : T[i]? with
  | none => simp [hT] at hr
  | some u =>
    simp only [hT, Option.map_some, Option.some.injEq] at hr
    subst hr
    obtain ⟨⟨t, uT, uh, us⟩, _⟩ := h3 u (List.mem_of_getElem? hT)
    have := us rfl
    cases t with
    | none => simp at this
    | some t =>
      have hw : WFT t := uh.1
      refine ⟨Enumerate (some t), answer_of_wp (W := fun _ => False) (EnumerateTreeP_spec hf uT), ?_⟩
      rintro ⟨x, hx, hc⟩
      have hd : (denT t g p).isSome = true := by
        obtain ⟨g', p', c1, c2⟩ := enumerate_sound hw x hx
        obtain ⟨rfl, rfl⟩ := IsNet.unique hc.1 c1.1
        rw [c2]; rfl
      obtain ⟨t', s', e1, e2⟩ := updateDescendants_stored cb hw hn hd s0
      have ⟨a, _, _, ha, hma, hal, _⟩ := uT
      rw [ha] at uT ⊢
      obtain ⟨s1, h', r1, ⟨rfl, r2⟩, r3, r4⟩ := wp_run (UpdateDescendantsP_spec cb hf uT hw e1)
      have e3 : Enumerate (some t') = (updateBelow cb g p (Enumerate (some t)) s0).1 := congrArg Prod.fst e2
      have e4 : s1 = (updateBelow cb g p (Enumerate (some t)) s0).2 := congrArg Prod.snd e2
      refine ⟨h', a, by rw [← e4]; exact r1, ?_, rfl, r4 a hal (fun q => q.2 rfl), fun j q hj hq => ?_⟩
      · rw [← e3]
        exact answer_of_wp (W := fun _ => False) (EnumerateTreeP_spec hf r2)
      · rw [h1, List.getElem?_map] at hq
        cases hTj : T[j]? with
        | none => simp [hTj] at hq
        | some w =>
          simp only [hTj, Option.map_some, Option.some.injEq] at hq
          subst hq
          obtain ⟨⟨t2, wT, wh, _⟩, _⟩ := h3 w (List.mem_of_getElem? hTj)
          have hne := hi u.2 (by simp [h2, hT]) j w.2 hj (by simp [h2, hTj])
          exact same_answers hf wT (wT.frame r3 fun x hx => r4 x (wT.lt hx) fun q => h4 w (List.mem_of_getElem? hTj) u (List.mem_of_getElem? hT) hne x ⟨hx, q.1⟩) wh.1

omit [Inhabited V] in
theorem sameL_keys {R : IPNet × V → IPNet × V → Prop} {l l' : List (IPNet × V)} (h : SameL (fun x x' => x'.1 = x.1 ∧ R x x') l l') :
    l'.map Prod.fst = l.map Prod.fst ∧ ∀ (k : Nat) x x', l[k]? = some x → l'[k]? = some x' → R x x' := by
  induction l generalizing l' with
  | nil => cases l' with
    | nil => exact ⟨rfl, fun k x x' q => by simp at q⟩
    | cons _ _ => exact h.elim
  | cons y l ih => cases l' with
    | nil => exact h.elim
    | cons y' l' =>
      obtain ⟨h1, h2⟩ := ih h.2
      refine ⟨by simp [h.1.1, h1], fun k x x' q q' => ?_⟩
      cases k with
      | zero => simp at q q'; subst q q'; exact h.1.2
      | succ k => simp at q q'; exact h2 k x x' q q'

/-- C60, shared trees: after any legal history, UpdateDescendants on any held tree, whether or not it shares nodes with others, ends
without panic, and every held tree still lists exactly the networks it listed, in the same order, with the values of the other
address family as they were; lookups in it still answer with the longest match among what it lists now. -/
theorem C60_shared {σ : Type} {f : Nat} (hf : 66 ≤ f) (ops : List (SOp (UOp V)))
    (hl : (Book.init : Book (UOp V)).LegalAll2 (fun _ o => isCall o) (uInpOk true) ops) (cb : σ → IPNet → V → (V × Bool) × σ)
    {n : IPNet} {g : Fam} {p : List Bool} (hn : IsNet n g p) (s0 : σ) :
    ∃ s, OStore.init.exec (ipuImpl true f) ops = .ok s ∧ ∀ (i : Nat) r, s.roots[i]? = some r →
      ∃ s1 h', (UpdateDescendantsP f cb r (some n) s0).run s.heap = .ok (s1, h') ∧ h'.next = s.heap.next ∧
        ∀ (j : Nat) q, s.roots[j]? = some q → ∃ l l' : List (IPNet × V),
          answer (EnumerateTreeP f q) s.heap = some (l.map fun p => (p.1, .user p.2)) ∧
          answer (EnumerateTreeP f q) h' = some (l'.map fun p => (p.1, .user p.2)) ∧
          l'.map Prod.fst = l.map Prod.fst ∧ (∀ (k : Nat) x x', l[k]? = some x → l'[k]? = some x' → x'.2 = x.2 ∨ ∃ w, IsCanonNet x.1 g w) ∧
          ∃ M, NetLists M l' ∧ ∀ n g p, IsNet n g p → ∃ x, answer (GetByNetP f q (some n)) h' = some (x.map .user) ∧ PMap.IsLongestMatch (M g) p x := by
  obtain ⟨s, e, _, h1, h2⟩ := obj_history (ipuImpl_lawful (V := V) true hf ops.length) ops (Nat.le_refl _) hl
  have obj : ∀ {j : Nat} {q : Ptr}, s.roots[j]? = some q → ∃ F t, TRep s.heap q t F ∧ WFT (base t) ∧ t.isSome := by
    intro j q hq
    have hil : j < (Book.init.exec ops).vs.length := by rw [← h1]; exact (List.getElem?_eq_some_iff.mp hq).1
    obtain ⟨_, F, t, hT, hh, hs⟩ := h2 j q _ hq (List.getElem?_eq_getElem hil)
    exact ⟨F, t, hT, hh.1, hs rfl⟩
  refine ⟨s, e, fun i r hr => ?_⟩
  obtain ⟨F, t, hT, hw, hs⟩ := obj hr
  cases t with
  | none => simp at hs
  | some t =>
    obtain ⟨t1, s1, hu⟩ : ∃ t1 s1, UpdateDescendants cb (some t) (some n) s0 = some (t1, s1) := by
      simp only [UpdateDescendants]
      cases v4Key n with
      | some kb => exact ⟨_, _, rfl⟩
      | none => cases v6Pair n <;> exact ⟨_, _, rfl⟩
    have ⟨a, _, _, ha, _⟩ := hT
    subst ha
    obtain ⟨x, h', r1, _, _, _⟩ := wp_run (UpdateDescendantsP_spec cb hf hT hw hu)
    have lk := touch_run (fun _ => .inl rfl) (sameC_trans g) (UpdateDescendantsP_touch f cb (some a) hn s0 s.heap) r1
    refine ⟨x, h', r1, lk.1, fun j q hq => ?_⟩
    obtain ⟨G, u, uT, uw, us⟩ := obj hq
    obtain ⟨u', uT', ul⟩ := uT.like lk
    have uw' := ul.wf uw
    obtain ⟨k1, k2⟩ := sameL_keys (ul.list uw)
    refine ⟨Enumerate u, Enumerate u', answer_of_wp (W := fun _ => False) (EnumerateTreeP_spec hf uT), answer_of_wp (W := fun _ => False) (EnumerateTreeP_spec hf uT'),
      k1, k2, _, lists_any uw', fun n g p hn => ?_⟩
    obtain ⟨x, x1, x2⟩ := getByNet_any uw' hn
    exact ⟨x, get_answer hf uT' x1, x2⟩

/-- Reads of a tree made by calls and updates. -/
def UpdRight : NetQ → List (UOp V) → Reply (HV V) (IPNet × HV V) → Prop
  | .get n, ops, x => ∀ M, NetMeans ops M →
    (∀ m g p, n = some m → IsNet m g p → ∃ y, x = .val (y.map .user) ∧ PMap.IsLongestMatch (M g) p y) ∧
    ((∀ m g p, n = some m → ¬ IsNet m g p) → x = .val none)
  | .list, ops, x => ∀ M, NetMeans ops M → ∃ l : List (IPNet × V), x = .list (l.map fun p => (p.1, .user p.2)) ∧ NetLists M l

/-- C60 with goroutines: goroutines deriving trees from shared trees, reading them, and inserting and updating in place in trees of
their own do not notice each other. -/
theorem C60_goroutines (st : Bool) {f : Nat} (hf : 66 ≤ f) (ops : List (SOp (UOp V)))
    (hl : (Book.init : Book (UOp V)).LegalAll2 (fun _ o => isCall o) (uInpOk st) ops)
    {T : Type} [DecidableEq T] (script : T → List (TOp (UOp V) NetQ))
    (hs : ∀ t, (Book.init.exec ops).LegalT (fun _ o => isCall o) (uInpOk st) (Book.init.exec ops).next (script t))
    (hN : ∃ N, ∀ t, (script t).length ≤ N) (sched : List T) :
    ∃ s, OStore.init.exec (ipuImpl st f) ops = .ok s ∧ ∀ t,
      let prog := fun t => sessionP (ipuImpl st f) (netRead f) (script t) s.roots
      Promise s (Book.init.exec ops) script prog UpdRight (UpdObserves f) ((Fleet.start s.heap prog).exec sched) sched t := by
  obtain ⟨N, hN⟩ := hN
  refine obj_fleet (ipuImpl_lawful (V := V) st hf (ops.length + N)) ops hl (netRead f) UpdRight _ ?_ ?_ script (by omega)
    (fun t => by have := hN t; omega) hs sched
  · rintro q h r l F _ ⟨t, hT, hh, _⟩
    have ob := updObserves_of_rep hf hT hh
    cases q with
    | get n =>
      simp only [netRead, wp_bind, Prog.wp_pure]
      refine wp_strengthen (GetByNetP_spec hf hT n) fun x h' hr hx => ⟨hx.1, fun M hM => ?_⟩
      obtain ⟨o1, o2, o3, _⟩ := ob.2 M hM
      have ea : ∀ z, answer (GetByNetP f r n) h = some z → x = z := by
        intro z hz
        simp only [answer, hr, Option.some.injEq] at hz
        exact hz
      constructor
      · rintro m g p rfl hm
        obtain ⟨y, y1, y2⟩ := o1 m g p hm
        exact ⟨y, by rw [ea _ y1], y2⟩
      · intro hn
        cases n with
        | none => rw [ea _ o3]
        | some m => rw [ea _ (o2 m fun g p => hn m g p rfl)]
    | list =>
      simp only [netRead, wp_bind, Prog.wp_pure]
      refine wp_strengthen (EnumerateTreeP_spec hf hT) fun x h' hr hx => ⟨hx.1, fun M hM => ?_⟩
      obtain ⟨_, _, _, y, y1, y2⟩ := ob.2 M hM
      simp only [answer, hr, Option.some.injEq] at y1
      exact ⟨y, by rw [y1], y2⟩
  · rintro h r l F _ ⟨t, hT, hh, _⟩
    exact updObserves_of_rep hf hT hh

/-! ## A nil tree or network -/

omit [Inhabited V] in
/-- On memory too, a nil network panics, and so does a nil tree with a network (IPv4 or IPv6). -/
theorem C60_nil_panics {σ : Type} (f : Nat) (cb : σ → IPNet → V → (V × Bool) × σ) (h : Heap (IPD V)) (s : σ) :
    (∀ r, (UpdateDescendantsP f cb r none s).run h = .error .panic) ∧
    ∀ n g p, IsNet n g p → (UpdateDescendantsP f cb none (some n) s).run h = .error .panic := by
  refine ⟨fun r => rfl, fun n g p hn => ?_⟩
  cases g with
  | v4 =>
    obtain ⟨k, b, h1, _⟩ := v4Key_of_isNet hn
    simp only [UpdateDescendantsP, h1]; rfl
  | v6 =>
    obtain ⟨k, h1, _⟩ := v6Pair_of_isNet hn
    simp only [UpdateDescendantsP, v4Key_of_v6 hn, h1]; rfl

/-! ## Concrete histories -/

/-- A callback adding 100 to even values; after three calls it changes nothing. -/
def evenCb (s : List (IPNet × Nat)) (_ : IPNet) (v : Nat) : Nat × Bool := (v + 100, v % 2 == 0 && s.length < 3)

/-- Values listed by every held tree. -/
def updAnswers (ops : List (SOp (UOp Nat))) : Option (List (Option (List (HV Nat)))) :=
  match OStore.init.exec (ipuImpl true 66) ops with
  | .ok s => some (s.roots.map fun r => (answer (EnumerateTreeP 66 r) s.heap).map fun l => l.map Prod.snd)
  | .error _ => none

/-- Tree 0 gets networks in place and is updated twice; tree 1 is of another origin and holds the same networks. -/
def updSample : List (SOp (UOp Nat)) :=
  [.fresh, .fresh,
   .inp 0 (.call (.insertNet (some (net6 0x20 0x01 0 0 64)) 2)), .inp 0 (.call (.insertNet (some (net6 0x20 0x01 0 1 128)) 4)),
   .inp 0 (.call (.insertNet (some (net6 0x20 0x01 0 0 16)) 6)), .inp 0 (.call (.insertNet (some (net4 10 0 0 0 8)) 8)),
   .inp 1 (.call (.insertNet (some (net6 0x20 0x01 0 1 128)) 4)),
   .inp 0 (.update (net6 0x20 0x01 0 0 64) evenCb), .inp 0 (.update (net6 0x20 0x01 0 0 16) evenCb)]

example : updAnswers updSample = some [some [.user 8, .user 6, .user 102, .user 204], some [.user 4]] := by decide +kernel

/-- Bits of 2001::/64. -/
def bits64 : List Bool := [false, false, true, false, false, false, false, false, false, false, false, false, false, false, false, true] ++ List.replicate 48 false

theorem isNet64 : IsNet (net6 0x20 0x01 0 0 64) .v6 bits64 := ⟨rfl, rfl, by decide, by decide +kernel, by decide +kernel⟩
theorem isNet16 : IsNet (net6 0x20 0x01 0 0 16) .v6 (bits64.take 16) := ⟨rfl, rfl, by decide, by decide +kernel, by decide +kernel⟩

/-- The sample meets the hypotheses. -/
example : (Book.init : Book (UOp Nat)).LegalAll2 (fun _ o => isCall o) (uInpOk true) updSample := by
  refine ⟨trivial, trivial, ?_, ?_, ?_, ?_, ?_, ?_, ?_, trivial⟩
  case refine_6 =>
    intro v hv
    simp [Book.init, Book.step] at hv
    subst hv
    refine ⟨⟨rfl, fun M g q hM hq hz => ?_⟩, fun j u hj hu => ?_⟩
    · obtain ⟨rfl, rfl⟩ := IsNet.unique isNet64 hq
      have hh := holds_calls (V := Nat) (t0 := some NewTree) (.inr rfl)
        [.insertNet (some (net4 10 0 0 0 8)) 8, .insertNet (some (net6 0x20 0x01 0 0 16)) 6, .insertNet (some (net6 0x20 0x01 0 1 128)) 4, .insertNet (some (net6 0x20 0x01 0 0 64)) 2] rfl
      rw [hh.2.2 M hM] at hz
      exact absurd hz (by decide +kernel)
    · simp [Book.init, Book.step] at hu
      rcases j with _ | _ | j <;> simp at hu <;> simp [← hu] at *
  case refine_7 =>
    intro v hv
    simp [Book.init, Book.step] at hv
    subst hv
    refine ⟨⟨rfl, fun M g q hM hq hz => ?_⟩, fun j u hj hu => ?_⟩
    · obtain ⟨rfl, rfl⟩ := IsNet.unique isNet16 hq
      exact .inr (.inl (by decide))
    · simp [Book.init, Book.step] at hu
      rcases j with _ | _ | j <;> simp at hu <;> simp [← hu] at *
  all_goals
    intro v hv
    simp [Book.init, Book.step] at hv
    subst hv
    refine ⟨⟨rfl, trivial⟩, fun j u hj hu => ?_⟩
    simp [Book.init, Book.step] at hu
    rcases j with _ | _ | j <;> simp at hu <;> simp [← hu] at *

/-- On a tree that shares nodes with an older one the update is seen through the older one: tree 1 is derived from nothing, tree 2
from tree 1 by inserting 10.0.0.0/8, tree 2 is updated below 2001::/16 and tree 1 changes. -/
theorem C60_shared_changes : ∃ ops : List (SOp (UOp Nat)), updAnswers (ops ++ [.inp 2 (.update (net6 0x20 0x01 0 0 16) evenCb)]) =
      some [some [], some [.user 6, .user 102], some [.user 1, .user 6, .user 102]] ∧
    updAnswers ops = some [some [], some [.user 6, .user 2], some [.user 1, .user 6, .user 2]] :=
  ⟨[.fresh, .fresh, .inp 1 (.call (.insertNet (some (net6 0x20 0x01 0 0 16)) 6)), .inp 1 (.call (.insertNet (some (net6 0x20 0x01 0 0 64)) 2)),
    .cow 1 (.call (.insertNet (some (net4 10 0 0 0 8)) 1))], by decide +kernel, by decide +kernel⟩

end Verif.Props
