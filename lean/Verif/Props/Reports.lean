import Verif.Report.Claims
import Verif.Props.Guarded

/-!
# Property theorems for what calls report (C92, C93, C94, C95)

`Delete` and its variants return a flag next to the tree.  In a history of the client (C92), in goroutines that share a variable (C93) and in goroutines that share a
tree under a read-write lock (C94) every tree comes with the flag of the call that made it (`none` if the call returns no flag), and the client may look at it
(`askReport`).  The flag is right: see `NumReports`, `KVReports`, `NetReports`, `UNetReports`, `DomReports`, `LabelReports`.
As a consequence goroutines that take keys from a shared tree by deleting them never take the same twice (C95).
-/

namespace Verif.Props
open Verif Verif.Heap Prog

/-- C92: in any history the flags are right, the trees show what they should, and memory and trees are those of the history without looking at flags. -/
def FlagsRight {D O R B : Type} (I : OImpl D O R) (P : Report D O R B) (Says : List O → B → Prop) (Ob : Heap D → R → List O → Prop) (ops : List (SOp O)) : Prop :=
  ∃ s, OStore.init.exec (I.reporting P) ops = .ok s ∧ OStore.init.exec I ops = .ok s.plain ∧ s.roots.length = (Book.init.exec ops).vs.length ∧
    ∀ (i : Nat) x v, s.roots[i]? = some x → (Book.init.exec ops).vs[i]? = some v → Says v.2 x.2 ∧ Ob s.heap x.1 v.2

/-- C95: goroutines share a tree of the history under a lock, as in C94; between a deletion `Del` and a later one that reports success there is an insertion `Ins`. -/
def ClaimsUnderLock {D O R K A T : Type} [DecidableEq T] (I : OImpl D O R) (Rd : Option K → R → Prog D (A ⊕ Option Bool)) (ops : List (SOp O)) (J : List O → Prop)
    (act : T → GAct O (Option K) (A ⊕ Option Bool)) (sched : List T) (Del Ins : O → Prop) : Prop :=
  ∃ s, OStore.init.exec I ops = .ok s ∧ ∀ (i : Nat) r v, s.roots[i]? = some r → (Book.init.exec ops).vs[i]? = some v → J v.2 →
    (∀ j u, j ≠ i → (Book.init.exec ops).vs[j]? = some u → u.1 ≠ v.1) → ClaimsOnce Del Ins ((Guard.start s.heap r act).exec I Rd sched).log

theorem claimsUnderLock_of {D O R K A T : Type} [DecidableEq T] {I : OImpl D O R} {P : Report D O R (Option Bool)} {Rd : Option K → R × Option Bool → Prog D (A ⊕ Option Bool)}
    {Right : K → List O → A → Prop} {Ob : Heap D → R × Option Bool → List O → Prop} {ops : List (SOp O)} {J : List O → Prop}
    {act : T → GAct O (Option K) (A ⊕ Option Bool)} {sched : List T} (h : SharedUnderLock (I.reporting P) Rd (ReportRight P Right) Ob ops J act sched) {Del Ins : O → Prop}
    (hd : ∀ o o' ms l, Del o → Del o' → P.Says (o' :: (ms ++ o :: l)) (some true) → ∃ p ∈ ms, Ins p) :
    ClaimsUnderLock (I.reporting P) Rd ops J act sched Del Ins := by
  obtain ⟨s, e, h⟩ := h
  exact ⟨s, e, fun i r v hr hv hJ hne => claimsOnce_of_fits (h i r v hr hv hJ hne).1.fits hd⟩

section Numtree
open Verif.Num Verif.NumHeap
variable {w : Nat} {V : Type} [LawfulKeySize w] [Inhabited V]

/-- C92 (numtree). -/
theorem C92_numtree {f : Nat} (hf : w + 2 ≤ f) (ops : List (SOp (NumOp w V)))
    (hl : (Book.init : Book (NumOp w V)).LegalAll2 (fun _ _ => True) (fun _ => (numImpl f w V).inpOk) ops) :
    FlagsRight (numImpl f w V).toO (numReport f) NumReports (fun h r l => Observes f h r (lastWrite (l.map NumOp.abs))) ops := by
  refine history_reports (n := ops.length) (Impl.toO_lawful (numImpl_lawful (V := V) hf _)) (numReport_lawful hf _) ops hl (fun h r l => Observes f h r (lastWrite (l.map NumOp.abs))) ?_ (Nat.le_refl _)
  · rintro h r l F _ ⟨A, rfl, a1, a2, _, _⟩
    exact observes_of_rep hf a1 a2

/-- C93 (numtree). -/
theorem C93_numtree {f : Nat} (hf : w + 2 ≤ f) (ops : List (SOp (NumOp w V)))
    (hl : (Book.init : Book (NumOp w V)).LegalAll2 (fun _ _ => True) (fun _ => (numImpl f w V).inpOk) ops)
    {T : Type} [DecidableEq T] (act : T → Act (NumOp w V) (Option (NumQ w)) ((Reply V (ND w V)) ⊕ Option Bool))
    (ha : ∀ t, (act t).Legal (fun _ _ => True) (fun _ => (numImpl f w V).inpOk) (ReportRight (numReport f) NumRight) false ⟨1, []⟩) (sched : List T) :
    EachRoot ((numImpl f w V).toO.reporting (numReport f)) ops fun h r l => let s := Hub.start h r act
      Follows act (s.exec ((numImpl f w V).toO.reporting (numReport f)) (askReport (numRead f)) sched).log (fun t => ((s.exec ((numImpl f w V).toO.reporting (numReport f)) (askReport (numRead f)) sched).th t).phase.todo) ∧
      HubPromise ((numImpl f w V).toO.reporting (numReport f)) (askReport (numRead f)) (ReportRight (numReport f) NumRight) (fun h x l => Observes f h x.1 (lastWrite (l.map NumOp.abs)) ∧ NumReports l x.2) (Board.start l) (s.exec ((numImpl f w V).toO.reporting (numReport f)) (askReport (numRead f)) sched) ∧ ReadsEnd ((numImpl f w V).toO.reporting (numReport f)) (askReport (numRead f)) s sched := by
  refine hub_sound_follows (n := ops.length + sched.length) (reporting_lawful (Impl.toO_lawful (numImpl_lawful (V := V) hf _)) (numReport_lawful hf _)) ops hl (askReport (numRead f)) (ReportRight (numReport f) NumRight) (fun h x l => Observes f h x.1 (lastWrite (l.map NumOp.abs)) ∧ NumReports l x.2) ?_ ?_ act ha sched (Nat.le_refl _)
  · refine fun q h x l F hn ho => askReport_ok (n := ops.length + sched.length) (numReport f) (numRead f) NumRight ?_ q h x l F hn ho
    exact fun q h r l F _ ho => numRead_ok hf q h r l F ho
  · rintro h ⟨r, b⟩ l F hn ⟨ho, hs⟩
    refine ⟨?_, hs⟩
    clear hs
    revert h r l F
    · rintro h r l F _ ⟨A, rfl, a1, a2, _, _⟩
      exact observes_of_rep hf a1 a2

/-- C94 (numtree). -/
theorem C94_numtree {f : Nat} (hf : w + 2 ≤ f) (ops : List (SOp (NumOp w V)))
    (hl : (Book.init : Book (NumOp w V)).LegalAll2 (fun _ _ => True) (fun _ => (numImpl f w V).inpOk) ops)
    {T : Type} [DecidableEq T] (J : List (NumOp w V) → Prop) (act : T → GAct (NumOp w V) (Option (NumQ w)) ((Reply V (ND w V)) ⊕ Option Bool))
    (ha : ∀ t, (act t).Legal J (fun _ _ => True) (fun _ => (numImpl f w V).inpOk) (ReportRight (numReport f) NumRight) .free []) (sched : List T) :
    SharedUnderLock ((numImpl f w V).toO.reporting (numReport f)) (askReport (numRead f)) (ReportRight (numReport f) NumRight) (fun h x l => Observes f h x.1 (lastWrite (l.map NumOp.abs)) ∧ NumReports l x.2) ops J act sched := by
  refine guard_sound (n := ops.length + sched.length) (reporting_lawful (Impl.toO_lawful (numImpl_lawful (V := V) hf _)) (numReport_lawful hf _)) ops hl (askReport (numRead f)) (ReportRight (numReport f) NumRight) (fun h x l => Observes f h x.1 (lastWrite (l.map NumOp.abs)) ∧ NumReports l x.2) ?_ ?_ J act ha sched (Nat.le_refl _)
  · refine fun q h x l F hn ho => askReport_ok (n := ops.length + sched.length) (numReport f) (numRead f) NumRight ?_ q h x l F hn ho
    exact fun q h r l F _ ho => numRead_ok hf q h r l F ho
  · rintro h ⟨r, b⟩ l F hn ⟨ho, hs⟩
    refine ⟨?_, hs⟩
    clear hs
    revert h r l F
    · rintro h r l F _ ⟨A, rfl, a1, a2, _, _⟩
      exact observes_of_rep hf a1 a2

/-- C95 (numtree). -/
theorem C95_numtree {f : Nat} (hf : w + 2 ≤ f) (ops : List (SOp (NumOp w V)))
    (hl : (Book.init : Book (NumOp w V)).LegalAll2 (fun _ _ => True) (fun _ => (numImpl f w V).inpOk) ops)
    {T : Type} [DecidableEq T] (J : List (NumOp w V) → Prop) (act : T → GAct (NumOp w V) (Option (NumQ w)) ((Reply V (ND w V)) ⊕ Option Bool))
    (ha : ∀ t, (act t).Legal J (fun _ _ => True) (fun _ => (numImpl f w V).inpOk) (ReportRight (numReport f) NumRight) .free []) (sched : List T) (p : List Bool) :
    ClaimsUnderLock ((numImpl f w V).toO.reporting (numReport f)) (askReport (numRead f)) ops J act sched (fun o => o.abs = .delete p) (fun o => ∃ q v, p <+: q ∧ o.abs = .insert q v) :=
  claimsUnderLock_of (C94_numtree hf ops hl J act ha sched) <| fun _ _ _ _ => num_claims

end Numtree

section Strtree
open Verif.RB Verif.RBHeap
variable {V : Type} [Inhabited V]

/-- C92 (strtree). -/
theorem C92_strtree {cmp : Bytes → Bytes → Int} (hc : LawfulCmp cmp) {f : Nat} (ops : List (SOp (KOp Bytes V)))
    (hl : (Book.init : Book (KOp Bytes V)).LegalAll2 (fun _ _ => True) (fun _ => (rbImpl (V := V) cmp f).inpOk) ops) (hf : 2 * ops.length + 3 ≤ f) :
    FlagsRight (rbImpl cmp f).toO (kvReport cmp f) (KVReports cmp) (KVObserves cmp f) ops := by
  refine history_reports (n := ops.length) (Impl.toO_lawful (rbImpl_lawful (V := V) hc.refl hf)) (kvReport_lawful hc hf) ops hl (KVObserves cmp f) ?_ (Nat.le_refl _)
  · rintro h r l F hn ⟨A, rfl, a1, a2, _, _⟩
    exact kvObserves_of_rep hc (by omega) hn a1 a2

/-- C93 (strtree). -/
theorem C93_strtree {cmp : Bytes → Bytes → Int} (hc : LawfulCmp cmp) {f : Nat} (ops : List (SOp (KOp Bytes V)))
    (hl : (Book.init : Book (KOp Bytes V)).LegalAll2 (fun _ _ => True) (fun _ => (rbImpl (V := V) cmp f).inpOk) ops)
    {T : Type} [DecidableEq T] (act : T → Act (KOp Bytes V) (Option KVQ) ((Reply V (Bytes × V)) ⊕ Option Bool))
    (ha : ∀ t, (act t).Legal (fun _ _ => True) (fun _ => (rbImpl (V := V) cmp f).inpOk) (ReportRight (kvReport cmp f) (KVRight cmp)) false ⟨1, []⟩) (sched : List T) (hf : 2 * (ops.length + sched.length) + 3 ≤ f) :
    EachRoot ((rbImpl cmp f).toO.reporting (kvReport cmp f)) ops fun h r l => let s := Hub.start h r act
      Follows act (s.exec ((rbImpl cmp f).toO.reporting (kvReport cmp f)) (askReport (kvRead cmp f)) sched).log (fun t => ((s.exec ((rbImpl cmp f).toO.reporting (kvReport cmp f)) (askReport (kvRead cmp f)) sched).th t).phase.todo) ∧
      HubPromise ((rbImpl cmp f).toO.reporting (kvReport cmp f)) (askReport (kvRead cmp f)) (ReportRight (kvReport cmp f) (KVRight cmp)) (fun h x l => (KVObserves cmp f) h x.1 l ∧ (KVReports cmp) l x.2) (Board.start l) (s.exec ((rbImpl cmp f).toO.reporting (kvReport cmp f)) (askReport (kvRead cmp f)) sched) ∧ ReadsEnd ((rbImpl cmp f).toO.reporting (kvReport cmp f)) (askReport (kvRead cmp f)) s sched := by
  refine hub_sound_follows (n := ops.length + sched.length) (reporting_lawful (Impl.toO_lawful (rbImpl_lawful (V := V) hc.refl hf)) (kvReport_lawful hc hf)) ops hl (askReport (kvRead cmp f)) (ReportRight (kvReport cmp f) (KVRight cmp)) (fun h x l => (KVObserves cmp f) h x.1 l ∧ (KVReports cmp) l x.2) ?_ ?_ act ha sched (Nat.le_refl _)
  · refine fun q h x l F hn ho => askReport_ok (n := ops.length + sched.length) (kvReport cmp f) (kvRead cmp f) (KVRight cmp) ?_ q h x l F hn ho
    exact fun q h r l F hn ho => kvRead_ok hc hf q h r l F hn ho
  · rintro h ⟨r, b⟩ l F hn ⟨ho, hs⟩
    refine ⟨?_, hs⟩
    clear hs
    revert h r l F
    · rintro h r l F hn ⟨A, rfl, a1, a2, _, _⟩
      exact kvObserves_of_rep hc (by omega) hn a1 a2

/-- C94 (strtree). -/
theorem C94_strtree {cmp : Bytes → Bytes → Int} (hc : LawfulCmp cmp) {f : Nat} (ops : List (SOp (KOp Bytes V)))
    (hl : (Book.init : Book (KOp Bytes V)).LegalAll2 (fun _ _ => True) (fun _ => (rbImpl (V := V) cmp f).inpOk) ops)
    {T : Type} [DecidableEq T] (J : List (KOp Bytes V) → Prop) (act : T → GAct (KOp Bytes V) (Option KVQ) ((Reply V (Bytes × V)) ⊕ Option Bool))
    (ha : ∀ t, (act t).Legal J (fun _ _ => True) (fun _ => (rbImpl (V := V) cmp f).inpOk) (ReportRight (kvReport cmp f) (KVRight cmp)) .free []) (sched : List T) (hf : 2 * (ops.length + sched.length) + 3 ≤ f) :
    SharedUnderLock ((rbImpl cmp f).toO.reporting (kvReport cmp f)) (askReport (kvRead cmp f)) (ReportRight (kvReport cmp f) (KVRight cmp)) (fun h x l => (KVObserves cmp f) h x.1 l ∧ (KVReports cmp) l x.2) ops J act sched := by
  refine guard_sound (n := ops.length + sched.length) (reporting_lawful (Impl.toO_lawful (rbImpl_lawful (V := V) hc.refl hf)) (kvReport_lawful hc hf)) ops hl (askReport (kvRead cmp f)) (ReportRight (kvReport cmp f) (KVRight cmp)) (fun h x l => (KVObserves cmp f) h x.1 l ∧ (KVReports cmp) l x.2) ?_ ?_ J act ha sched (Nat.le_refl _)
  · refine fun q h x l F hn ho => askReport_ok (n := ops.length + sched.length) (kvReport cmp f) (kvRead cmp f) (KVRight cmp) ?_ q h x l F hn ho
    exact fun q h r l F hn ho => kvRead_ok hc hf q h r l F hn ho
  · rintro h ⟨r, b⟩ l F hn ⟨ho, hs⟩
    refine ⟨?_, hs⟩
    clear hs
    revert h r l F
    · rintro h r l F hn ⟨A, rfl, a1, a2, _, _⟩
      exact kvObserves_of_rep hc (by omega) hn a1 a2

/-- C95 (strtree). -/
theorem C95_strtree {cmp : Bytes → Bytes → Int} (hc : LawfulCmp cmp) {f : Nat} (ops : List (SOp (KOp Bytes V)))
    (hl : (Book.init : Book (KOp Bytes V)).LegalAll2 (fun _ _ => True) (fun _ => (rbImpl (V := V) cmp f).inpOk) ops)
    {T : Type} [DecidableEq T] (J : List (KOp Bytes V) → Prop) (act : T → GAct (KOp Bytes V) (Option KVQ) ((Reply V (Bytes × V)) ⊕ Option Bool))
    (ha : ∀ t, (act t).Legal J (fun _ _ => True) (fun _ => (rbImpl (V := V) cmp f).inpOk) (ReportRight (kvReport cmp f) (KVRight cmp)) .free []) (sched : List T) (k : Bytes) (hf : 2 * (ops.length + sched.length) + 3 ≤ f) :
    ClaimsUnderLock ((rbImpl cmp f).toO.reporting (kvReport cmp f)) (askReport (kvRead cmp f)) ops J act sched (fun o => ∃ k', cmp k' k = 0 ∧ o = .delete k') (fun o => ∃ k' v, cmp k' k = 0 ∧ o = .insert k' v) :=
  claimsUnderLock_of (C94_strtree hc ops hl J act ha sched hf) <| by
  rintro _ _ ms l ⟨k1, h1, rfl⟩ ⟨k2, h2, rfl⟩ h
  exact kv_claims hc h1 h2 h

end Strtree

section Iptree
open Verif.IP Verif.IPHeap
variable {V : Type} [Inhabited V]

/-- C92 (iptree). -/
theorem C92_iptree (st : Bool) {f : Nat} (hf : 66 ≤ f) (ops : List (SOp (Op V)))
    (hl : (Book.init : Book (Op V)).LegalAll2 (fun _ _ => True) (ipImpl st f).inpOk ops) :
    FlagsRight (ipImpl st f) (netReport f) NetReports (NetObserves f) ops := by
  refine history_reports (n := ops.length) (ipImpl_lawful (V := V) st hf _) (netReport_lawful st hf _) ops hl (NetObserves f) ?_ (Nat.le_refl _)
  · rintro h r l F _ ⟨t, ht, hT⟩
    exact netObserves_of_rep hf hT ht

/-- C93 (iptree). -/
theorem C93_iptree (st : Bool) {f : Nat} (hf : 66 ≤ f) (ops : List (SOp (Op V)))
    (hl : (Book.init : Book (Op V)).LegalAll2 (fun _ _ => True) (ipImpl st f).inpOk ops)
    {T : Type} [DecidableEq T] (act : T → Act (Op V) (Option NetQ) ((Reply (HV V) (IPNet × HV V)) ⊕ Option Bool))
    (ha : ∀ t, (act t).Legal (fun _ _ => True) (ipImpl st f).inpOk (ReportRight (netReport f) NetRight) false ⟨1, []⟩) (sched : List T) :
    EachRoot ((ipImpl st f).reporting (netReport f)) ops fun h r l => let s := Hub.start h r act
      Follows act (s.exec ((ipImpl st f).reporting (netReport f)) (askReport (netRead f)) sched).log (fun t => ((s.exec ((ipImpl st f).reporting (netReport f)) (askReport (netRead f)) sched).th t).phase.todo) ∧
      HubPromise ((ipImpl st f).reporting (netReport f)) (askReport (netRead f)) (ReportRight (netReport f) NetRight) (fun h x l => (NetObserves f) h x.1 l ∧ NetReports l x.2) (Board.start l) (s.exec ((ipImpl st f).reporting (netReport f)) (askReport (netRead f)) sched) ∧ ReadsEnd ((ipImpl st f).reporting (netReport f)) (askReport (netRead f)) s sched := by
  refine hub_sound_follows (n := ops.length + sched.length) (reporting_lawful (ipImpl_lawful (V := V) st hf _) (netReport_lawful st hf _)) ops hl (askReport (netRead f)) (ReportRight (netReport f) NetRight) (fun h x l => (NetObserves f) h x.1 l ∧ NetReports l x.2) ?_ ?_ act ha sched (Nat.le_refl _)
  · refine fun q h x l F hn ho => askReport_ok (n := ops.length + sched.length) (netReport f) (netRead f) NetRight ?_ q h x l F hn ho
    exact fun q h r l F _ ho => netRead_ok hf q h r l F ho
  · rintro h ⟨r, b⟩ l F hn ⟨ho, hs⟩
    refine ⟨?_, hs⟩
    clear hs
    revert h r l F
    · rintro h r l F _ ⟨t, ht, hT⟩
      exact netObserves_of_rep hf hT ht

/-- C94 (iptree). -/
theorem C94_iptree (st : Bool) {f : Nat} (hf : 66 ≤ f) (ops : List (SOp (Op V)))
    (hl : (Book.init : Book (Op V)).LegalAll2 (fun _ _ => True) (ipImpl st f).inpOk ops)
    {T : Type} [DecidableEq T] (J : List (Op V) → Prop) (act : T → GAct (Op V) (Option NetQ) ((Reply (HV V) (IPNet × HV V)) ⊕ Option Bool))
    (ha : ∀ t, (act t).Legal J (fun _ _ => True) (ipImpl st f).inpOk (ReportRight (netReport f) NetRight) .free []) (sched : List T) :
    SharedUnderLock ((ipImpl st f).reporting (netReport f)) (askReport (netRead f)) (ReportRight (netReport f) NetRight) (fun h x l => (NetObserves f) h x.1 l ∧ NetReports l x.2) ops J act sched := by
  refine guard_sound (n := ops.length + sched.length) (reporting_lawful (ipImpl_lawful (V := V) st hf _) (netReport_lawful st hf _)) ops hl (askReport (netRead f)) (ReportRight (netReport f) NetRight) (fun h x l => (NetObserves f) h x.1 l ∧ NetReports l x.2) ?_ ?_ J act ha sched (Nat.le_refl _)
  · refine fun q h x l F hn ho => askReport_ok (n := ops.length + sched.length) (netReport f) (netRead f) NetRight ?_ q h x l F hn ho
    exact fun q h r l F _ ho => netRead_ok hf q h r l F ho
  · rintro h ⟨r, b⟩ l F hn ⟨ho, hs⟩
    refine ⟨?_, hs⟩
    clear hs
    revert h r l F
    · rintro h r l F _ ⟨t, ht, hT⟩
      exact netObserves_of_rep hf hT ht

/-- C95 (iptree). -/
theorem C95_iptree (st : Bool) {f : Nat} (hf : 66 ≤ f) (ops : List (SOp (Op V)))
    (hl : (Book.init : Book (Op V)).LegalAll2 (fun _ _ => True) (ipImpl st f).inpOk ops)
    {T : Type} [DecidableEq T] (J : List (Op V) → Prop) (act : T → GAct (Op V) (Option NetQ) ((Reply (HV V) (IPNet × HV V)) ⊕ Option Bool))
    (ha : ∀ t, (act t).Legal J (fun _ _ => True) (ipImpl st f).inpOk (ReportRight (netReport f) NetRight) .free []) (sched : List T) (g : Fam) (p : List Bool) :
    ClaimsUnderLock ((ipImpl st f).reporting (netReport f)) (askReport (netRead f)) ops J act sched (fun o => OpNet o (some (g, .delete p))) (fun o => ∃ q v, p <+: q ∧ OpNet o (some (g, .insert q v))) :=
  claimsUnderLock_of (C94_iptree st hf ops hl J act ha sched) <| fun _ _ _ _ => net_claims

end Iptree

section UIptree
open Verif.IP (Op OpNet)
open Verif.UIPHeap (UD uipImpl uipImpl_lawful)
variable {V : Type} [Inhabited V]

/-- C92 (generated IP trees). -/
theorem C92_uiptree (st : Bool) {f : Nat} (hf : 66 ≤ f) (ops : List (SOp (Op V)))
    (hl : (Book.init : Book (Op V)).LegalAll2 (fun _ _ => True) (uipImpl st f).inpOk ops) :
    FlagsRight (uipImpl st f) (unetReport f) UNetReports (UShows f) ops := by
  refine history_reports (n := ops.length) (uipImpl_lawful (V := V) st hf _) (unetReport_lawful st hf _) ops hl (UShows f) ?_ (Nat.le_refl _)
  · rintro h r l F _ ⟨t, hT, hL, _⟩
    exact uShows_of_rep hf hT hL

/-- C93 (generated IP trees). -/
theorem C93_uiptree (st : Bool) {f : Nat} (hf : 66 ≤ f) (ops : List (SOp (Op V)))
    (hl : (Book.init : Book (Op V)).LegalAll2 (fun _ _ => True) (uipImpl st f).inpOk ops)
    {T : Type} [DecidableEq T] (act : T → Act (Op V) (Option NetQ) ((Reply V (IPNet × V)) ⊕ Option Bool))
    (ha : ∀ t, (act t).Legal (fun _ _ => True) (uipImpl st f).inpOk (ReportRight (unetReport f) UNetRight) false ⟨1, []⟩) (sched : List T) :
    EachRoot ((uipImpl st f).reporting (unetReport f)) ops fun h r l => let s := Hub.start h r act
      Follows act (s.exec ((uipImpl st f).reporting (unetReport f)) (askReport (unetRead f)) sched).log (fun t => ((s.exec ((uipImpl st f).reporting (unetReport f)) (askReport (unetRead f)) sched).th t).phase.todo) ∧
      HubPromise ((uipImpl st f).reporting (unetReport f)) (askReport (unetRead f)) (ReportRight (unetReport f) UNetRight) (fun h x l => (UShows f) h x.1 l ∧ UNetReports l x.2) (Board.start l) (s.exec ((uipImpl st f).reporting (unetReport f)) (askReport (unetRead f)) sched) ∧ ReadsEnd ((uipImpl st f).reporting (unetReport f)) (askReport (unetRead f)) s sched := by
  refine hub_sound_follows (n := ops.length + sched.length) (reporting_lawful (uipImpl_lawful (V := V) st hf _) (unetReport_lawful st hf _)) ops hl (askReport (unetRead f)) (ReportRight (unetReport f) UNetRight) (fun h x l => (UShows f) h x.1 l ∧ UNetReports l x.2) ?_ ?_ act ha sched (Nat.le_refl _)
  · refine fun q h x l F hn ho => askReport_ok (n := ops.length + sched.length) (unetReport f) (unetRead f) UNetRight ?_ q h x l F hn ho
    exact fun q h r l F _ ho => unetRead_ok hf q h r l F ho
  · rintro h ⟨r, b⟩ l F hn ⟨ho, hs⟩
    refine ⟨?_, hs⟩
    clear hs
    revert h r l F
    · rintro h r l F _ ⟨t, hT, hL, _⟩
      exact uShows_of_rep hf hT hL

/-- C94 (generated IP trees). -/
theorem C94_uiptree (st : Bool) {f : Nat} (hf : 66 ≤ f) (ops : List (SOp (Op V)))
    (hl : (Book.init : Book (Op V)).LegalAll2 (fun _ _ => True) (uipImpl st f).inpOk ops)
    {T : Type} [DecidableEq T] (J : List (Op V) → Prop) (act : T → GAct (Op V) (Option NetQ) ((Reply V (IPNet × V)) ⊕ Option Bool))
    (ha : ∀ t, (act t).Legal J (fun _ _ => True) (uipImpl st f).inpOk (ReportRight (unetReport f) UNetRight) .free []) (sched : List T) :
    SharedUnderLock ((uipImpl st f).reporting (unetReport f)) (askReport (unetRead f)) (ReportRight (unetReport f) UNetRight) (fun h x l => (UShows f) h x.1 l ∧ UNetReports l x.2) ops J act sched := by
  refine guard_sound (n := ops.length + sched.length) (reporting_lawful (uipImpl_lawful (V := V) st hf _) (unetReport_lawful st hf _)) ops hl (askReport (unetRead f)) (ReportRight (unetReport f) UNetRight) (fun h x l => (UShows f) h x.1 l ∧ UNetReports l x.2) ?_ ?_ J act ha sched (Nat.le_refl _)
  · refine fun q h x l F hn ho => askReport_ok (n := ops.length + sched.length) (unetReport f) (unetRead f) UNetRight ?_ q h x l F hn ho
    exact fun q h r l F _ ho => unetRead_ok hf q h r l F ho
  · rintro h ⟨r, b⟩ l F hn ⟨ho, hs⟩
    refine ⟨?_, hs⟩
    clear hs
    revert h r l F
    · rintro h r l F _ ⟨t, hT, hL, _⟩
      exact uShows_of_rep hf hT hL

/-- C95 (generated IP trees). -/
theorem C95_uiptree (st : Bool) {f : Nat} (hf : 66 ≤ f) (ops : List (SOp (Op V)))
    (hl : (Book.init : Book (Op V)).LegalAll2 (fun _ _ => True) (uipImpl st f).inpOk ops)
    {T : Type} [DecidableEq T] (J : List (Op V) → Prop) (act : T → GAct (Op V) (Option NetQ) ((Reply V (IPNet × V)) ⊕ Option Bool))
    (ha : ∀ t, (act t).Legal J (fun _ _ => True) (uipImpl st f).inpOk (ReportRight (unetReport f) UNetRight) .free []) (sched : List T) (g : Fam) (p : List Bool) :
    ClaimsUnderLock ((uipImpl st f).reporting (unetReport f)) (askReport (unetRead f)) ops J act sched (fun o => OpNet o (some (g, .delete p))) (fun o => ∃ q v, p <+: q ∧ OpNet o (some (g, .insert q v))) :=
  claimsUnderLock_of (C94_uiptree st hf ops hl J act ha sched) <| fun _ _ _ _ => unet_claims

end UIptree

section Domaintree
open Verif.Domain Verif.DomTree Verif.DomHeap
variable {V : Type}

/-- C92 (domaintree). -/
theorem C92_domaintree (st : Bool) {f : Nat} (hk : 128 ≤ f) (ops : List (SOp (Op V)))
    (hl : (Book.init : Book (Op V)).LegalAll2 cowOk (inpOk st) ops) (hf : 2 * ops.length + 3 ≤ f) :
    FlagsRight (domImpl st f) (domReport f) DomReports (DomObserves f) ops := by
  refine history_reports (n := ops.length) (domImpl_lawful (V := V) st hf) (domReport_lawful st hf) ops hl (DomObserves f) ?_ (Nat.le_refl _)
  · rintro h r l F hn ho
    exact domObserves_of_rep (by omega) hk ho

/-- C93 (domaintree). -/
theorem C93_domaintree (st : Bool) {f : Nat} (hk : 128 ≤ f) (ops : List (SOp (Op V)))
    (hl : (Book.init : Book (Op V)).LegalAll2 cowOk (inpOk st) ops)
    {T : Type} [DecidableEq T] (act : T → Act (Op V) (Option DomQ) ((Reply V (Bytes × V)) ⊕ Option Bool))
    (ha : ∀ t, (act t).Legal cowOk (inpOk st) (ReportRight (domReport f) DomRight) false ⟨1, []⟩) (sched : List T) (hf : 2 * (ops.length + sched.length) + 3 ≤ f) :
    EachRoot ((domImpl st f).reporting (domReport f)) ops fun h r l => let s := Hub.start h r act
      Follows act (s.exec ((domImpl st f).reporting (domReport f)) (askReport (domRead f)) sched).log (fun t => ((s.exec ((domImpl st f).reporting (domReport f)) (askReport (domRead f)) sched).th t).phase.todo) ∧
      HubPromise ((domImpl st f).reporting (domReport f)) (askReport (domRead f)) (ReportRight (domReport f) DomRight) (fun h x l => (DomObserves f) h x.1 l ∧ DomReports l x.2) (Board.start l) (s.exec ((domImpl st f).reporting (domReport f)) (askReport (domRead f)) sched) ∧ ReadsEnd ((domImpl st f).reporting (domReport f)) (askReport (domRead f)) s sched := by
  refine hub_sound_follows (n := ops.length + sched.length) (reporting_lawful (domImpl_lawful (V := V) st hf) (domReport_lawful st hf)) ops hl (askReport (domRead f)) (ReportRight (domReport f) DomRight) (fun h x l => (DomObserves f) h x.1 l ∧ DomReports l x.2) ?_ ?_ act ha sched (Nat.le_refl _)
  · refine fun q h x l F hn ho => askReport_ok (n := ops.length + sched.length) (domReport f) (domRead f) DomRight ?_ q h x l F hn ho
    exact fun q h r l F hn ho => domRead_ok hf hk q h r l F hn ho
  · rintro h ⟨r, b⟩ l F hn ⟨ho, hs⟩
    refine ⟨?_, hs⟩
    clear hs
    revert h r l F
    · rintro h r l F hn ho
      exact domObserves_of_rep (by omega) hk ho

/-- C94 (domaintree). -/
theorem C94_domaintree (st : Bool) {f : Nat} (hk : 128 ≤ f) (ops : List (SOp (Op V)))
    (hl : (Book.init : Book (Op V)).LegalAll2 cowOk (inpOk st) ops)
    {T : Type} [DecidableEq T] (J : List (Op V) → Prop) (act : T → GAct (Op V) (Option DomQ) ((Reply V (Bytes × V)) ⊕ Option Bool))
    (ha : ∀ t, (act t).Legal J cowOk (inpOk st) (ReportRight (domReport f) DomRight) .free []) (sched : List T) (hf : 2 * (ops.length + sched.length) + 3 ≤ f) :
    SharedUnderLock ((domImpl st f).reporting (domReport f)) (askReport (domRead f)) (ReportRight (domReport f) DomRight) (fun h x l => (DomObserves f) h x.1 l ∧ DomReports l x.2) ops J act sched := by
  refine guard_sound (n := ops.length + sched.length) (reporting_lawful (domImpl_lawful (V := V) st hf) (domReport_lawful st hf)) ops hl (askReport (domRead f)) (ReportRight (domReport f) DomRight) (fun h x l => (DomObserves f) h x.1 l ∧ DomReports l x.2) ?_ ?_ J act ha sched (Nat.le_refl _)
  · refine fun q h x l F hn ho => askReport_ok (n := ops.length + sched.length) (domReport f) (domRead f) DomRight ?_ q h x l F hn ho
    exact fun q h r l F hn ho => domRead_ok hf hk q h r l F hn ho
  · rintro h ⟨r, b⟩ l F hn ⟨ho, hs⟩
    refine ⟨?_, hs⟩
    clear hs
    revert h r l F
    · rintro h r l F hn ho
      exact domObserves_of_rep (by omega) hk ho

/-- C95 (domaintree). -/
theorem C95_domaintree (st : Bool) {f : Nat} (hk : 128 ≤ f) (ops : List (SOp (Op V)))
    (hl : (Book.init : Book (Op V)).LegalAll2 cowOk (inpOk st) ops)
    {T : Type} [DecidableEq T] (J : List (Op V) → Prop) (act : T → GAct (Op V) (Option DomQ) ((Reply V (Bytes × V)) ⊕ Option Bool))
    (ha : ∀ t, (act t).Legal J cowOk (inpOk st) (ReportRight (domReport f) DomRight) .free []) (sched : List T) (ls : List Bytes) (hf : 2 * (ops.length + sched.length) + 3 ≤ f) :
    ClaimsUnderLock ((domImpl st f).reporting (domReport f)) (askReport (domRead f)) ops J act sched (fun o => ∃ d, d.labels = some ls ∧ o = .delete d) (fun o => ∃ v, domOf o = some (.insert ls v)) :=
  claimsUnderLock_of (C94_domaintree st hk ops hl J act ha sched hf) <| by
  rintro _ _ ms l ⟨d, h1, rfl⟩ ⟨d2, h2, rfl⟩ h
  exact dom_claims h1 h2 h

/-- C95 (domaintree), for `DeleteSubdomains`. -/
theorem C95_domaintree_sub (st : Bool) {f : Nat} (hk : 128 ≤ f) (ops : List (SOp (Op V)))
    (hl : (Book.init : Book (Op V)).LegalAll2 cowOk (inpOk st) ops)
    {T : Type} [DecidableEq T] (J : List (Op V) → Prop) (act : T → GAct (Op V) (Option DomQ) ((Reply V (Bytes × V)) ⊕ Option Bool))
    (ha : ∀ t, (act t).Legal J cowOk (inpOk st) (ReportRight (domReport f) DomRight) .free []) (sched : List T) (ls : List Bytes) (hf : 2 * (ops.length + sched.length) + 3 ≤ f) :
    ClaimsUnderLock ((domImpl st f).reporting (domReport f)) (askReport (domRead f)) ops J act sched (fun o => ∃ d, d.labels = some ls ∧ o = .deleteSub d) (fun o => ∃ q v, ls <+: q ∧ domOf o = some (.insert q v)) :=
  claimsUnderLock_of (C94_domaintree st hk ops hl J act ha sched hf) <| by
  rintro _ _ ms l ⟨d, h1, rfl⟩ ⟨d2, h2, rfl⟩ h
  exact dom_sub_claims h1 h2 h

end Domaintree

section Dltree
open Verif.DL Verif.DLHeap
variable {V : Type} [Inhabited V]

/-- C92 (dltree). -/
theorem C92_dltree (st : Bool) {f : Nat} (ops : List (SOp (DL.Op V)))
    (hl : (Book.init : Book (DL.Op V)).LegalAll2 dlCow (dlInp st) ops) (hf : 2 * ops.length + 3 ≤ f) :
    FlagsRight (dlImpl st f) (labelReport f) LabelReports (DLShows f) ops := by
  refine history_reports (n := ops.length) (dlImpl_lawful (V := V) st hf) (labelReport_lawful st hf) ops hl (DLShows f) ?_ (Nat.le_refl _)
  · rintro h r l F hn ho
    exact dlShows_of_obj (by omega) ho

/-- C93 (dltree). -/
theorem C93_dltree (st : Bool) {f : Nat} (ops : List (SOp (DL.Op V)))
    (hl : (Book.init : Book (DL.Op V)).LegalAll2 dlCow (dlInp st) ops)
    {T : Type} [DecidableEq T] (act : T → Act (DL.Op V) (Option LabelQ) ((Reply V (Bytes × V)) ⊕ Option Bool))
    (ha : ∀ t, (act t).Legal dlCow (dlInp st) (ReportRight (labelReport f) LabelRight) false ⟨1, []⟩) (sched : List T) (hf : 2 * (ops.length + sched.length) + 3 ≤ f) :
    EachRoot ((dlImpl st f).reporting (labelReport f)) ops fun h r l => let s := Hub.start h r act
      Follows act (s.exec ((dlImpl st f).reporting (labelReport f)) (askReport (labelRead f)) sched).log (fun t => ((s.exec ((dlImpl st f).reporting (labelReport f)) (askReport (labelRead f)) sched).th t).phase.todo) ∧
      HubPromise ((dlImpl st f).reporting (labelReport f)) (askReport (labelRead f)) (ReportRight (labelReport f) LabelRight) (fun h x l => (DLShows f) h x.1 l ∧ LabelReports l x.2) (Board.start l) (s.exec ((dlImpl st f).reporting (labelReport f)) (askReport (labelRead f)) sched) ∧ ReadsEnd ((dlImpl st f).reporting (labelReport f)) (askReport (labelRead f)) s sched := by
  refine hub_sound_follows (n := ops.length + sched.length) (reporting_lawful (dlImpl_lawful (V := V) st hf) (labelReport_lawful st hf)) ops hl (askReport (labelRead f)) (ReportRight (labelReport f) LabelRight) (fun h x l => (DLShows f) h x.1 l ∧ LabelReports l x.2) ?_ ?_ act ha sched (Nat.le_refl _)
  · refine fun q h x l F hn ho => askReport_ok (n := ops.length + sched.length) (labelReport f) (labelRead f) LabelRight ?_ q h x l F hn ho
    exact fun q h r l F hn ho => labelRead_ok hf q h r l F hn ho
  · rintro h ⟨r, b⟩ l F hn ⟨ho, hs⟩
    refine ⟨?_, hs⟩
    clear hs
    revert h r l F
    · rintro h r l F hn ho
      exact dlShows_of_obj (by omega) ho

/-- C94 (dltree). -/
theorem C94_dltree (st : Bool) {f : Nat} (ops : List (SOp (DL.Op V)))
    (hl : (Book.init : Book (DL.Op V)).LegalAll2 dlCow (dlInp st) ops)
    {T : Type} [DecidableEq T] (J : List (DL.Op V) → Prop) (act : T → GAct (DL.Op V) (Option LabelQ) ((Reply V (Bytes × V)) ⊕ Option Bool))
    (ha : ∀ t, (act t).Legal J dlCow (dlInp st) (ReportRight (labelReport f) LabelRight) .free []) (sched : List T) (hf : 2 * (ops.length + sched.length) + 3 ≤ f) :
    SharedUnderLock ((dlImpl st f).reporting (labelReport f)) (askReport (labelRead f)) (ReportRight (labelReport f) LabelRight) (fun h x l => (DLShows f) h x.1 l ∧ LabelReports l x.2) ops J act sched := by
  refine guard_sound (n := ops.length + sched.length) (reporting_lawful (dlImpl_lawful (V := V) st hf) (labelReport_lawful st hf)) ops hl (askReport (labelRead f)) (ReportRight (labelReport f) LabelRight) (fun h x l => (DLShows f) h x.1 l ∧ LabelReports l x.2) ?_ ?_ J act ha sched (Nat.le_refl _)
  · refine fun q h x l F hn ho => askReport_ok (n := ops.length + sched.length) (labelReport f) (labelRead f) LabelRight ?_ q h x l F hn ho
    exact fun q h r l F hn ho => labelRead_ok hf q h r l F hn ho
  · rintro h ⟨r, b⟩ l F hn ⟨ho, hs⟩
    refine ⟨?_, hs⟩
    clear hs
    revert h r l F
    · rintro h r l F hn ho
      exact dlShows_of_obj (by omega) ho

/-- C95 (dltree). -/
theorem C95_dltree (st : Bool) {f : Nat} (ops : List (SOp (DL.Op V)))
    (hl : (Book.init : Book (DL.Op V)).LegalAll2 dlCow (dlInp st) ops)
    {T : Type} [DecidableEq T] (J : List (DL.Op V) → Prop) (act : T → GAct (DL.Op V) (Option LabelQ) ((Reply V (Bytes × V)) ⊕ Option Bool))
    (ha : ∀ t, (act t).Legal J dlCow (dlInp st) (ReportRight (labelReport f) LabelRight) .free []) (sched : List T) (k : Bytes) (hf : 2 * (ops.length + sched.length) + 3 ≤ f) :
    ClaimsUnderLock ((dlImpl st f).reporting (labelReport f)) (askReport (labelRead f)) ops J act sched (fun o => OpMeans o (.delete k)) (fun o => ∃ v, OpMeans o (.insert k v)) :=
  claimsUnderLock_of (C94_dltree st ops hl J act ha sched hf) <| fun _ _ _ _ => label_claims

end Dltree

/-! ## Concrete cases -/

/-- The flags of the trees at the end of a history. -/
def flagsOf {D O R B : Type} (I : OImpl D O R) (P : Report D O R B) (ops : List (SOp O)) : Option (List B) :=
  match OStore.init.exec (I.reporting P) ops with
  | .ok s => some (s.roots.map Prod.snd)
  | .error _ => none

/-- The flags among answers. -/
def flagsIn {A : Type} : List (A ⊕ Option Bool) → List (Option Bool) := List.filterMap fun
  | .inr b => some b
  | .inl _ => none

/-- The flags each goroutine has looked at when a schedule under a lock is over, and whether it has come to its end. -/
def flagsSeen {D O R K A : Type} (I : OImpl D O R) (Rd : K → R → Prog D (A ⊕ Option Bool)) (ops : List (SOp O)) (i n : Nat)
    (act : Fin n → GAct O K (A ⊕ Option Bool)) (sched : List (Fin n)) : Option (List (Option (List (Option Bool)))) :=
  (guardFinals I Rd ops i n act sched).map fun l => l.map fun x => x.map flagsIn

/-- The same for goroutines that share a variable. -/
def flagsHub {D O R K A : Type} (I : OImpl D O R) (Rd : K → R → Prog D (A ⊕ Option Bool)) (ops : List (SOp O)) (i n : Nat)
    (act : Fin n → Act O K (A ⊕ Option Bool)) (sched : List (Fin n)) : Option (List (Option (List (Option Bool)))) :=
  (hubFinals I Rd ops i n act sched).map fun l => l.map fun x => x.map fun y => flagsIn (y.filterMap id)

section
open Verif.RB Verif.RBHeap

/-- Key 1 is deleted twice from the same tree and once more from the result; then put back in place and deleted again. -/
def kvClaimed : List (SOp (KOp Bytes Nat)) :=
  [.fresh, .cow 0 (.insert [1] 1), .cow 1 (.delete [1]), .cow 1 (.delete [1]), .cow 2 (.delete [1]), .cow 1 (.delete [2]), .cow 4 (.insert [1] 5), .cow 6 (.delete [1])]

example : flagsOf (rbImpl compareBytes 100).toO (kvReport compareBytes 100) kvClaimed =
    some [none, none, some true, some true, some false, some false, none, some true] := by decide +kernel

example : (Book.init : Book (KOp Bytes Nat)).LegalAll2 (fun _ _ => True) (fun _ => (rbImpl (V := Nat) compareBytes 100).inpOk) kvClaimed :=
  ⟨trivial, fun _ _ => trivial, fun _ _ => trivial, fun _ _ => trivial, fun _ _ => trivial, fun _ _ => trivial, fun _ _ => trivial, fun _ _ => trivial, trivial⟩

/-- A goroutine that takes key 1 under the lock; the one that got it puts key 2 there. -/
def claim : GAct (KOp Bytes Nat) (Option KVQ) (Reply Nat (Bytes × Nat) ⊕ Option Bool) :=
  .lock (.change true (.delete [1]) (.read none fun
    | .inr (some true) => .change false (.insert [2] 2) (.unlock .done)
    | _ => .unlock .done))

/-- Two goroutines take key 1; a third takes it, too, and then puts it back for whoever comes later. -/
def claimers : Fin 3 → GAct (KOp Bytes Nat) (Option KVQ) (Reply Nat (Bytes × Nat) ⊕ Option Bool)
  | 2 => .lock (.change true (.delete [1]) (.read none fun _ => .change false (.insert [1] 7) (.unlock .done)))
  | _ => claim

/-- Goroutine 0 gets the key, goroutine 1 the one put back by goroutine 2, which got nothing. -/
example : flagsSeen ((rbImpl compareBytes 1000).toO.reporting (kvReport compareBytes 1000)) (askReport (kvRead compareBytes 1000)) [.fresh, .inp 0 (.insert [1] 0)] 0 3 claimers
    (0 :: 2 :: (turns 3 400 (by decide)).filter (· ≠ 1) ++ List.replicate 60 1) = some [some [some true], some [some true], some [some false]] := by decide +kernel

/-- Without goroutine 2 only one of them gets it. -/
example : flagsSeen ((rbImpl compareBytes 1000).toO.reporting (kvReport compareBytes 1000)) (askReport (kvRead compareBytes 1000)) [.fresh, .inp 0 (.insert [1] 0)] 0 2 (fun _ => claim)
    (turns 2 300 (by decide)) = some [some [some true], some [some false]] := by decide +kernel

/-- The cases meet the hypotheses. -/
example : ∀ t, (claimers t).Legal (fun _ => True) (fun _ _ => True) (fun _ => (rbImpl (V := Nat) compareBytes 1000).inpOk)
    (ReportRight (kvReport compareBytes 1000) (KVRight compareBytes)) .free [] := by
  have hc : claim.Legal (fun _ => True) (fun _ _ => True) (fun _ => (rbImpl (V := Nat) compareBytes 1000).inpOk)
      (ReportRight (kvReport compareBytes 1000) (KVRight compareBytes)) .free [] := by
    refine ⟨rfl, fun _ _ => ⟨rfl, trivial, by simp, fun a _ => ?_⟩⟩
    match a with
    | .inr (some true) => exact ⟨rfl, trivial, rfl, trivial, rfl⟩
    | .inr (some false) => exact ⟨rfl, trivial, rfl⟩
    | .inr none => exact ⟨rfl, trivial, rfl⟩
    | .inl _ => exact ⟨rfl, trivial, rfl⟩
  intro t
  match t with
  | 0 => exact hc
  | 1 => exact hc
  | 2 => exact ⟨rfl, fun _ _ => ⟨rfl, trivial, by simp, fun _ _ => ⟨rfl, trivial, rfl, trivial, rfl⟩⟩⟩

/-- A goroutine that takes key 1 from a shared variable: under the lock it loads the tree, deletes, looks at the flag and stores the result. -/
def take : Act (KOp Bytes Nat) (Option KVQ) (Reply Nat (Bytes × Nat) ⊕ Option Bool) :=
  .lock (.load (.call (.cow 0 (.delete [1])) (.store 1 (.unlock (.read 1 none fun _ => .done)))))

example : flagsHub ((rbImpl compareBytes 600).toO.reporting (kvReport compareBytes 600)) (askReport (kvRead compareBytes 600)) kvShared 2 2 (fun _ => take) (turns 2 240 (by decide)) =
    some [some [some true], some [some false]] := by decide +kernel

example (iok : List (KOp Bytes Nat) → KOp Bytes Nat → Prop) :
    take.Legal (fun _ _ => True) iok (ReportRight (kvReport compareBytes 600) (KVRight compareBytes)) false ⟨1, []⟩ :=
  ⟨rfl, fun _ => ⟨rfl, fun _ _ => trivial, trivial, rfl, by simp [Book.step], rfl, fun _ _ => rfl⟩⟩

/-- Not covered, and wrong: without the lock both goroutines get the key. -/
example : flagsHub ((rbImpl compareBytes 600).toO.reporting (kvReport compareBytes 600)) (askReport (kvRead compareBytes 600)) kvShared 2 2
    (fun _ => .load (.call (.cow 0 (.delete [1])) (.store 1 (.read 1 none fun _ => .done)))) (turns 2 240 (by decide)) =
    some [some [some true], some [some true]] := by decide +kernel

end

section
open Verif.Num Verif.NumHeap

/-- 10.1.0.0/16 is deleted by way of 10.0.0.0/8, which is not stored itself; a second time there is nothing to delete. -/
def numClaimed : List (SOp (NumOp 32 Nat)) :=
  [.fresh, .cow 0 (.insert 0x0A010000#32 16 1), .cow 1 (.delete 0x0A000000#32 8), .cow 2 (.delete 0x0A000000#32 8), .cow 1 (.delete 0x0A010100#32 24)]

example : flagsOf (numImpl 34 32 Nat).toO (numReport 34) numClaimed = some [none, none, some true, some false, some false] := by decide +kernel

example : (Book.init : Book (NumOp 32 Nat)).LegalAll2 (fun _ _ => True) (fun _ => (numImpl 34 32 Nat).inpOk) numClaimed :=
  ⟨trivial, fun _ _ => trivial, fun _ _ => trivial, fun _ _ => trivial, fun _ _ => trivial, trivial⟩

end

section
open Verif.IP

/-- 2001::/16 is deleted, with 2001::/64 stored; then the latter itself. -/
def netClaimed : List (SOp (Op Nat)) :=
  [.fresh, .cow 0 (.insertNet (some (net6 0x20 0x01 0 0 64)) 1), .cow 1 (.deleteByNet (some (net6 0x20 0x01 0 0 16))), .cow 2 (.deleteByNet (some (net6 0x20 0x01 0 0 64)))]

example : flagsOf (IPHeap.ipImpl true 66) (netReport 66) netClaimed = some [none, none, some true, some false] := by decide +kernel

/-- The generated packages do not delete anything below /64 by way of 2001::/16 (C48), and say so. -/
example : flagsOf (UIPHeap.uipImpl true 66) (unetReport 66) netClaimed = some [none, none, some false, some true] := by decide +kernel

example (iok : List (Op Nat) → Op Nat → Prop) : (Book.init : Book (Op Nat)).LegalAll2 (fun _ _ => True) iok netClaimed :=
  ⟨trivial, fun _ _ => trivial, fun _ _ => trivial, fun _ _ => trivial, trivial⟩

end

section
open Verif.Domain Verif.DomTree Verif.DomHeap

/-- `Delete` of com finds nothing, `DeleteSubdomains` of com finds b.com, once. -/
def domClaimed : List (SOp (Op Nat)) :=
  [.fresh, .cow 0 (.insert (nm "b.com") 1), .cow 1 (.delete (nm "com")), .cow 1 (.deleteSub (nm "com")), .cow 3 (.deleteSub (nm "com")), .cow 1 (.delete (nm "b.com"))]

example : flagsOf (domImpl true 200) (domReport 200) domClaimed = some [none, none, some false, some true, some false, some true] := by decide +kernel

end

section
open Verif.DL Verif.DLHeap

/-- A label put in text form is deleted in raw form, once. -/
example : flagsOf (dlImpl true 100) (labelReport 100) [.fresh, .cow 0 (.insert [97] (1 : Nat)), .cow 1 (.rawDelete [65]), .cow 2 (.delete [97]), .cow 1 (.delete [98])] =
    some [none, none, some true, some false, some false] := by decide +kernel

end

end Verif.Props
