import Verif.Props.IptreeUpdateHeap
import Verif.Props.Locked
import Verif.Props.Fair

/-!
# Property theorems for UpdateDescendants on shared iptrees (C96)

Goroutines share an iptree through a variable or under a read-write lock, as for C81, C87, C88, C90 and C91, and in-place changes include `UpdateDescendants`
(`UOp.update`): with the lock for writing, or on trees a goroutine has started itself and not yet stored in the variable.
-/

namespace Verif.Props
open Verif Verif.Heap Verif.Pipe Prog Verif.IP Verif.IPHeap
variable {V : Type} [Inhabited V]

theorem updRead_ok {st : Bool} {f : Nat} (hf : 66 ≤ f) (q : NetQ) (h : Heap (IPD V)) (r : Ptr) (l : List (UOp V)) (F : Addr → Prop) (ho : (ipuImpl st f).Obj h r l F) :
    wp (fun _ => False) (netRead f q r) (fun x h' => h' = h ∧ UpdRight q l x) h := by
  obtain ⟨t, hT, hh, _⟩ := ho
  have ob := updObserves_of_rep hf hT hh
  cases q with
  | get n =>
    simp only [netRead, wp_bind, Prog.wp_pure]
    refine wp_strengthen (GetByNetP_spec hf hT n) fun x h' hr hx => ⟨hx.1, fun M hM => ?_⟩
    obtain ⟨o1, o2, o3, _⟩ := ob.2 M hM
    have ea : ∀ z, answer (GetByNetP f r n) h = some z → x = z := by
      intro z hz
      simp only [answer, hr, Option.some.injEq] at hz
      exact hz
    constructor
    · rintro m g p rfl hm
      obtain ⟨y, y1, y2⟩ := o1 m g p hm
      exact ⟨y, by rw [ea _ y1], y2⟩
    · intro hn
      cases n with
      | none => rw [ea _ o3]
      | some m => rw [ea _ (o2 m fun g p => hn m g p rfl)]
  | list =>
    simp only [netRead, wp_bind, Prog.wp_pure]
    refine wp_strengthen (EnumerateTreeP_spec hf hT) fun x h' hr hx => ⟨hx.1, fun M hM => ?_⟩
    obtain ⟨_, _, _, y, y1, y2⟩ := ob.2 M hM
    simp only [answer, hr, Option.some.injEq] at y1
    exact ⟨y, by rw [y1], y2⟩

theorem updObserves_ok {st : Bool} {f : Nat} (hf : 66 ≤ f) (h : Heap (IPD V)) (r : Ptr) (l : List (UOp V)) (F : Addr → Prop) (ho : (ipuImpl st f).Obj h r l F) :
    UpdObserves f h r l := by
  obtain ⟨t, hT, hh, _⟩ := ho
  exact updObserves_of_rep hf hT hh

/-- C96: goroutines that share a variable. -/
theorem C96_variable (st : Bool) {f : Nat} (hf : 66 ≤ f) (ops : List (SOp (UOp V)))
    (hl : (Book.init : Book (UOp V)).LegalAll2 (fun _ o => isCall o) (uInpOk st) ops)
    {T : Type} [DecidableEq T] (act : T → Act (UOp V) NetQ (Reply (HV V) (IPNet × HV V)))
    (ha : ∀ t, (act t).Legal (fun _ o => isCall o) (uInpOk st) UpdRight false ⟨1, []⟩) (sched : List T) :
    EachRoot (ipuImpl st f) ops fun h r l => let s := Hub.start h r act
      Follows act (s.exec (ipuImpl st f) (netRead f) sched).log (fun t => ((s.exec (ipuImpl st f) (netRead f) sched).th t).phase.todo) ∧
      HubPromise (ipuImpl st f) (netRead f) UpdRight (UpdObserves f) (Board.start l) (s.exec (ipuImpl st f) (netRead f) sched) ∧ ReadsEnd (ipuImpl st f) (netRead f) s sched :=
  hub_sound_follows (n := ops.length + sched.length) (ipuImpl_lawful (V := V) st hf _) ops hl (netRead f) UpdRight (UpdObserves f)
    (fun q h r l F _ ho => updRead_ok hf q h r l F ho) (fun h r l F _ ho => updObserves_ok hf h r l F ho) act ha sched (Nat.le_refl _)

/-- C96: goroutines that share a tree under a read-write lock. -/
theorem C96_lock (st : Bool) {f : Nat} (hf : 66 ≤ f) (ops : List (SOp (UOp V)))
    (hl : (Book.init : Book (UOp V)).LegalAll2 (fun _ o => isCall o) (uInpOk st) ops)
    {T : Type} [DecidableEq T] (J : List (UOp V) → Prop) (act : T → GAct (UOp V) NetQ (Reply (HV V) (IPNet × HV V)))
    (ha : ∀ t, (act t).Legal J (fun _ o => isCall o) (uInpOk st) UpdRight .free []) (sched : List T) :
    SharedUnderLock (ipuImpl st f) (netRead f) UpdRight (UpdObserves f) ops J act sched :=
  guard_sound (n := ops.length + sched.length) (ipuImpl_lawful (V := V) st hf _) ops hl (netRead f) UpdRight (UpdObserves f)
    (fun q h r l F _ ho => updRead_ok hf q h r l F ho) (fun h r l F _ ho => updObserves_ok hf h r l F ho) J act ha sched (Nat.le_refl _)

/-- C96: the goroutines of a shared variable come to their end. -/
theorem C96_variable_ends (st : Bool) {f : Nat} (hf : 66 ≤ f) (ops : List (SOp (UOp V)))
    (hl : (Book.init : Book (UOp V)).LegalAll2 (fun _ o => isCall o) (uInpOk st) ops)
    {T : Type} [DecidableEq T] {ts : List T} (hts : ∀ t, t ∈ ts) (act : T → Act (UOp V) NetQ (Reply (HV V) (IPNet × HV V)))
    (ha : ∀ t, (act t).Legal (fun _ o => isCall o) (uInpOk st) UpdRight false ⟨1, []⟩) (sched : Nat → T) :
    EachRoot (ipuImpl st f) ops fun h r l => HubEnds (ipuImpl st f) (netRead f) UpdRight (UpdObserves f) l act (Hub.start h r act) sched :=
  hub_ends (fun n => ipuImpl_lawful (V := V) st hf n) ops hl (netRead f) UpdRight (UpdObserves f) (fun q h r l F ho => updRead_ok hf q h r l F ho)
    (fun h r l F ho => updObserves_ok hf h r l F ho) hts act ha sched

/-- C96: the goroutines under a read-write lock come to their end. -/
theorem C96_lock_ends (st : Bool) {f : Nat} (hf : 66 ≤ f) (ops : List (SOp (UOp V)))
    (hl : (Book.init : Book (UOp V)).LegalAll2 (fun _ o => isCall o) (uInpOk st) ops)
    {T : Type} [DecidableEq T] {ts : List T} (hts : ∀ t, t ∈ ts) (J : List (UOp V) → Prop) (act : T → GAct (UOp V) NetQ (Reply (HV V) (IPNet × HV V)))
    (ha : ∀ t, (act t).Legal J (fun _ o => isCall o) (uInpOk st) UpdRight .free []) (sched : Nat → T) :
    LockedEnds (ipuImpl st f) (netRead f) UpdRight (UpdObserves f) ops J act sched :=
  guard_ends (fun n => ipuImpl_lawful (V := V) st hf n) ops hl (netRead f) UpdRight (UpdObserves f) (fun q h r l F ho => updRead_ok hf q h r l F ho)
    (fun h r l F ho => updObserves_ok hf h r l F ho) hts J act ha sched

/-- `Enumerate` of a tree made by calls and updates. -/
theorem updLoop_lawful (st : Bool) {f rounds : Nat} (hf : 66 ≤ f) (hr : 2 ^ 131 < rounds) (n : Nat) :
    (ipLoop f rounds V).Lawful (ipuImpl st f) (fun l es => UpdRight .list l (.list es)) n where
  ok := by
    intro h r l F _ ho
    have hread := updRead_ok hf .list h r l F ho
    obtain ⟨t, hT, ht, _⟩ := ho
    obtain ⟨k, hk⟩ := ipGen_out (rounds := rounds) hf (Nat.le_trans (by decide) (Nat.le_of_lt hr)) hT
    refine ⟨_, (IP.Enumerate t).map fun p => (p.1, HV.user p.2), k, hk, ?_, ?_, by simp, ?_⟩
    · rw [List.length_map]
      exact Nat.lt_of_le_of_lt (ip_length hT) hr
    · have h2 : wp (fun _ => False) (netRead f .list r) (fun x h' => x = .list ((IP.Enumerate t).map fun p => (p.1, HV.user p.2))) h := by
        simp only [netRead, wp_bind, wp_pure]
        exact wp_conseq (IPHeap.EnumerateTreeP_spec hf hT) fun x h' hx => by rw [hx.2]
      obtain ⟨x, h', e1, e2, _⟩ := wp_run hread
      obtain ⟨x', h'', e3, e4, _⟩ := wp_run h2
      rw [e1] at e3
      cases e3
      rw [← e4]; exact e2.2
    · intro j b e hb he h' _
      rw [List.getElem?_map] at hb he
      cases hj : (IP.Enumerate t)[j]? with
      | none => rw [hj] at hb; cases hb
      | some p =>
        rw [hj] at hb he
        cases hb; cases he
        exact ⟨rfl, rfl⟩

/-- C96: goroutines that share a variable and loop over `Enumerate`. -/
theorem C96_ranging (st : Bool) {f rounds : Nat} (hf : 66 ≤ f) (hr : 2 ^ 131 < rounds) (ops : List (SOp (UOp V)))
    (hl : (Book.init : Book (UOp V)).LegalAll2 (fun _ o => isCall o) (uInpOk st) ops)
    {T : Type} [DecidableEq T] (act : T → RAct (UOp V) NetQ (Reply (HV V) (IPNet × HV V)) (IPNet × HV V))
    (ha : ∀ t, (act t).Legal (fun _ o => isCall o) (uInpOk st) UpdRight (fun l es => UpdRight .list l (.list es) ∧ es.length < rounds) false ⟨1, []⟩ [] []) :
    EachRoot (ipuImpl st f) ops fun h r l => RangeEnds (ipuImpl st f) (netRead f) (ipLoop f rounds V) UpdRight (fun l es => UpdRight .list l (.list es) ∧ es.length < rounds)
      (UpdObserves f) l act (RHub.start h r act) :=
  ranging_sound (fun n => ipuImpl_lawful (V := V) st hf n) ops hl (netRead f) UpdRight (UpdObserves f) (fun q h r l F ho => updRead_ok hf q h r l F ho)
    (fun h r l F ho => updObserves_ok hf h r l F ho) (fun n => Loop.Lawful.short (updLoop_lawful st hf hr n) fun _ _ h1 h2 => ⟨h1, h2⟩) act ha

/-- C96: goroutines that share a tree under a read-write lock and loop over `Enumerate`. -/
theorem C96_locked (st : Bool) {f rounds : Nat} (hf : 66 ≤ f) (hr : 2 ^ 131 < rounds) (ops : List (SOp (UOp V)))
    (hl : (Book.init : Book (UOp V)).LegalAll2 (fun _ o => isCall o) (uInpOk st) ops)
    {T : Type} [DecidableEq T] (J : List (UOp V) → Prop) (act : T → LAct (UOp V) NetQ (Reply (HV V) (IPNet × HV V)) (IPNet × HV V))
    (ha : ∀ t, (act t).Legal J (fun _ o => isCall o) (uInpOk st) UpdRight (fun l es => UpdRight .list l (.list es) ∧ es.length < rounds) .free [] []) :
    EachShared (ipuImpl st f) ops J fun h r l others => LockEnds (ipuImpl st f) (netRead f) (ipLoop f rounds V) UpdRight
      (fun l es => UpdRight .list l (.list es) ∧ es.length < rounds) (UpdObserves f) l others act (LHub.start h r act) :=
  locked_sound (fun n => ipuImpl_lawful (V := V) st hf n) ops hl (netRead f) UpdRight (UpdObserves f) (fun q h r l F ho => updRead_ok hf q h r l F ho)
    (fun h r l F ho => updObserves_ok hf h r l F ho) (fun n => Loop.Lawful.short (updLoop_lawful st hf hr n) fun _ _ h1 h2 => ⟨h1, h2⟩) J act ha

/-! ## Concrete cases -/

/-- A callback that adds one to every value. -/
def bumpCb (_ : List (IPNet × Nat)) (_ : IPNet) (v : Nat) : Nat × Bool := (v + 1, true)

/-- 10.0.0.0/8 and two networks below. -/
def bumpTree : List (SOp (UOp Nat)) :=
  [.fresh, .inp 0 (.call (.insertNet (some (net4 10 0 0 0 8)) 0)), .inp 0 (.call (.insertNet (some (net4 10 1 0 0 16)) 10)), .inp 0 (.call (.insertNet (some (net4 10 2 0 0 16)) 20))]

/-- Two goroutines add one to everything below 10.0.0.0/8, the second one twice; one lists twice, then inserts a further network copy-on-write, and lists again. -/
def bumpers : Fin 3 → GAct (UOp Nat) NetQ (Reply (HV Nat) (IPNet × HV Nat))
  | 0 => .lock (.change false (.update (net4 10 0 0 0 8) bumpCb) (.unlock .done))
  | 1 => .lock (.change false (.update (net4 10 0 0 0 8) bumpCb) (.change false (.update (net4 10 0 0 0 8) bumpCb) (.unlock .done)))
  | 2 => .rlock (.read .list fun _ => .runlock (.rlock (.read .list fun _ => .runlock (.lock (.change true (.call (.insertNet (some (net4 11 0 0 0 8)) 7)) (.read .list fun _ => .unlock .done))))))

/-- The values in the listings each goroutine got, if it has come to its end. -/
def bumpSeen (n : Nat) (act : Fin n → GAct (UOp Nat) NetQ (Reply (HV Nat) (IPNet × HV Nat))) (sched : List (Fin n)) : Option (List (Option (List (List Nat)))) :=
  (guardFinals (ipuImpl true 66) (netRead 66) bumpTree 0 n act sched).map fun l => l.map fun x => x.map fun y => y.map fun
    | .list es => es.filterMap fun e => match e.2 with
      | .user v => some v
      | .sub _ => none
    | .val _ => []

/-- Every listing is of a moment between updates, and no update is lost. -/
example : bumpSeen 3 bumpers (List.replicate 5 2 ++ turns 3 400 (by decide)) = some [some [], some [], some [[0, 10, 20], [0, 13, 23], [0, 13, 23, 7]]] := by decide +kernel

theorem isNet10 : IsNet (net4 10 0 0 0 8) .v4 [false, false, false, false, true, false, true, false] := ⟨rfl, rfl, by decide, by decide +kernel, by decide +kernel⟩

theorem bump_ok (l : List (UOp Nat)) (cb : List (IPNet × Nat) → IPNet → Nat → Nat × Bool) : uInpOk true l (.update (net4 10 0 0 0 8) cb) := by
  refine ⟨rfl, fun M g q hM hq hz => ?_⟩
  obtain ⟨rfl, rfl⟩ := IsNet.unique isNet10 hq
  exact .inl rfl

/-- The case meets the hypotheses. -/
example : ∀ t, (bumpers t).Legal (fun _ => True) (fun _ o => isCall o) (uInpOk true) UpdRight .free [] := by
  intro t
  match t with
  | 0 => exact ⟨rfl, fun _ _ => ⟨rfl, bump_ok _ bumpCb, rfl, trivial, rfl⟩⟩
  | 1 => exact ⟨rfl, fun _ _ => ⟨rfl, bump_ok _ bumpCb, rfl, bump_ok _ bumpCb, rfl, trivial, rfl⟩⟩
  | 2 => exact ⟨rfl, fun _ _ => ⟨by simp, fun _ _ => ⟨rfl, rfl, fun _ _ => ⟨by simp, fun _ _ => ⟨rfl, rfl, fun _ _ => ⟨rfl, trivial, by simp, fun _ _ => ⟨rfl, trivial, rfl⟩⟩⟩⟩⟩⟩⟩

example : (Book.init : Book (UOp Nat)).LegalAll2 (fun _ o => isCall o) (uInpOk true) bumpTree := by
  refine ⟨trivial, ?_, ?_, ?_, trivial⟩ <;>
  · intro v hv
    refine ⟨⟨rfl, trivial⟩, fun j u hj hu => ?_⟩
    rcases j with _ | j
    · exact absurd rfl hj
    · simp [Book.init, Book.step] at hu

/-- Not covered, and wrong: a listing made while another goroutine updates without the lock shows an update half done. -/
example : bumpSeen 2 (fun | 0 => .change false (.update (net4 10 0 0 0 8) bumpCb) .done | 1 => .read .list fun _ => .done)
    (List.replicate 5 0 ++ turns 2 100 (by decide)) = some [some [], some [[0, 11, 20]]] := by decide +kernel

end Verif.Props
