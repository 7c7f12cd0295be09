import Verif.Report.Trees
import Verif.Spec.Guard

/-!
# Between two deletions that find something, something is inserted

In a record of goroutines sharing a tree under a lock: when a deletion reports that it removed something, and an earlier deletion was of the same, then in between
somebody inserted something there.  So goroutines that take work from a tree by deleting keys never take the same piece twice.
-/

namespace Verif.Props
open Verif Verif.Heap

/-- Between a deletion and a later one that reports success there is an insertion.  (`none` is the question for the flag, which may come any time before the next change.) -/
def ClaimsOnce {T O K A : Type} (Del Ins : O → Prop) (log : List (GEvent T O (Option K) (A ⊕ Option Bool))) : Prop :=
  ∀ a t o m u o' n y c, Del o → Del o' → log = a ++ .change t o :: (m ++ .change u o' :: (n ++ .answer y none (.inr (some true)) :: c)) →
    (∀ z p, .change z p ∉ n) → ∃ x p, .change x p ∈ m ∧ Ins p

/-- The changes in a record, newest first, in front of a chain. -/
def onto {T O K A : Type} (l : List O) : List (GEvent T O K A) → List O
  | [] => l
  | .change _ o :: es => onto (o :: l) es
  | _ :: es => onto l es

theorem replay_tree {T O K A : Type} [DecidableEq T] (es : List (GEvent T O K A)) (b : GBoard T O) : (b.replay es).tree = onto b.tree es := by
  induction es generalizing b with
  | nil => rfl
  | cons e es ih => cases e <;> exact ih _

theorem onto_eq {T O K A : Type} (es : List (GEvent T O K A)) (l : List O) : ∃ ms, onto l es = ms ++ l ∧ ∀ o ∈ ms, ∃ x, .change x o ∈ es := by
  induction es generalizing l with
  | nil => exact ⟨[], rfl, by simp⟩
  | cons e es ih =>
    have skip : onto l (e :: es) = onto l es → ∃ ms, onto l (e :: es) = ms ++ l ∧ ∀ o ∈ ms, ∃ x, .change x o ∈ e :: es := by
      intro he
      obtain ⟨ms, h1, h2⟩ := ih l
      exact ⟨ms, he.trans h1, fun o ho => (h2 o ho).imp fun x hx => List.mem_cons_of_mem _ hx⟩
    cases e with
    | change x o =>
      obtain ⟨ms, h1, h2⟩ := ih (o :: l)
      refine ⟨ms ++ [o], by simpa [onto] using h1, fun p hp => ?_⟩
      rcases List.mem_append.1 hp with hp | hp
      · exact (h2 p hp).imp fun x hx => List.mem_cons_of_mem _ hx
      · rw [List.mem_singleton.1 hp]; exact ⟨x, List.mem_cons_self ..⟩
    | lock => exact skip rfl
    | unlock => exact skip rfl
    | rlock => exact skip rfl
    | runlock => exact skip rfl
    | answer => exact skip rfl

theorem claimsOnce_of_fits {T D O R K A : Type} [DecidableEq T] {Rep : Report D O R (Option Bool)} {Right : K → List O → A → Prop} {b : GBoard T O}
    {log : List (GEvent T O (Option K) (A ⊕ Option Bool))} (hf : b.FitsAll (ReportRight Rep Right) log) {Del Ins : O → Prop}
    (hd : ∀ o o' ms l, Del o → Del o' → Rep.Says (o' :: (ms ++ o :: l)) (some true) → ∃ p ∈ ms, Ins p) : ClaimsOnce Del Ins log := by
  rintro a t o m u o' n y c h1 h2 rfl hn
  rw [GBoard.fitsAll_append] at hf
  have hf := hf.2.2
  rw [GBoard.fitsAll_append] at hf
  have hf := hf.2.2
  rw [GBoard.fitsAll_append] at hf
  obtain ⟨f, e, hs⟩ := hf.2.1.2
  cases e
  obtain ⟨ns, n1, n2⟩ := onto_eq n (o' :: onto (o :: (b.replay a).tree) m)
  have n3 : ns = [] := by
    cases ns with
    | nil => rfl
    | cons p ns =>
      obtain ⟨x, hx⟩ := n2 p (List.mem_cons_self ..)
      exact absurd hx (hn x p)
  subst n3
  have e0 : ((((b.replay a).step (.change t o : GEvent T O (Option K) (A ⊕ Option Bool))).replay m).step (.change u o' : GEvent T O (Option K) (A ⊕ Option Bool))).tree =
      o' :: onto (o :: (b.replay a).tree) m := by
    show o' :: (((b.replay a).step (.change t o : GEvent T O (Option K) (A ⊕ Option Bool))).replay m).tree = _
    rw [replay_tree]; rfl
  rw [replay_tree, e0, n1] at hs
  obtain ⟨ms, m1, m2⟩ := onto_eq m (o :: (b.replay a).tree)
  rw [m1] at hs
  obtain ⟨p, p1, p2⟩ := hd o o' ms _ h1 h2 hs
  obtain ⟨x, hx⟩ := m2 p p1
  exact ⟨x, p, hx, p2⟩

section
variable {V : Type}

theorem lastWrite_between {p : List Bool} {ms : List (POp V)} {l : List (POp V)} {q : List Bool} {v : V} (hq : p <+: q) (h : lastWrite (ms ++ .delete p :: l) q = some v) :
    ∃ w, .insert q w ∈ ms := by
  induction ms with
  | nil => simp [lastWrite, hq] at h
  | cons o ms ih =>
    cases o with
    | insert p' v' =>
      simp only [List.cons_append, lastWrite] at h
      split at h
      · rename_i e; subst e; exact ⟨v', by simp⟩
      · obtain ⟨w, hw⟩ := ih h; exact ⟨w, by simp [hw]⟩
    | delete p' =>
      simp only [List.cons_append, lastWrite] at h
      split at h
      · cases h
      · obtain ⟨w, hw⟩ := ih h; exact ⟨w, by simp [hw]⟩

theorem lastWriteBy_between {cmp : Bytes → Bytes → Int} {k q : Bytes} {ms l : List (KOp Bytes V)} (hk : cmp k q = 0) (h : (lastWriteBy cmp (ms ++ .delete k :: l) q).isSome) :
    ∃ k' w, .insert k' w ∈ ms ∧ cmp k' q = 0 := by
  induction ms with
  | nil => simp [lastWriteBy, hk] at h
  | cons o ms ih =>
    cases o with
    | insert p' v' =>
      simp only [List.cons_append, lastWriteBy] at h
      split at h
      · rename_i e; exact ⟨p', v', by simp, e⟩
      · obtain ⟨k', w, hw, e⟩ := ih h; exact ⟨k', w, by simp [hw], e⟩
    | delete p' =>
      simp only [List.cons_append, lastWriteBy] at h
      split at h
      · cases h
      · obtain ⟨k', w, hw, e⟩ := ih h; exact ⟨k', w, by simp [hw], e⟩

theorem lastWrite'_between {q : Bytes} {ms l : List (KOp Bytes V)} (h : (lastWrite' (ms ++ .delete q :: l) q).isSome) : ∃ w, .insert q w ∈ ms := by
  induction ms with
  | nil => simp [lastWrite'] at h
  | cons o ms ih =>
    cases o with
    | insert p' v' =>
      simp only [List.cons_append, lastWrite'] at h
      split at h
      · rename_i e; subst e; exact ⟨v', by simp⟩
      · obtain ⟨w, hw⟩ := ih h; exact ⟨w, by simp [hw]⟩
    | delete p' =>
      simp only [List.cons_append, lastWrite'] at h
      split at h
      · cases h
      · obtain ⟨w, hw⟩ := ih h; exact ⟨w, by simp [hw]⟩

theorem lastDom_between {q : List Bytes} {ms l : List (DOp V)} {o : DOp V} (ho : lastDom (o :: l) q = none) (h : (lastDom (ms ++ o :: l) q).isSome) : ∃ w, .insert q w ∈ ms := by
  induction ms with
  | nil => rw [List.nil_append, ho] at h; cases h
  | cons p ms ih =>
    cases p with
    | insert p' v' =>
      simp only [List.cons_append, lastDom] at h
      split at h
      · rename_i e; subst e; exact ⟨v', by simp⟩
      · obtain ⟨w, hw⟩ := ih h; exact ⟨w, by simp [hw]⟩
    | delete p' =>
      simp only [List.cons_append, lastDom] at h
      split at h
      · cases h
      · obtain ⟨w, hw⟩ := ih h; exact ⟨w, by simp [hw]⟩
    | deleteSub p' =>
      simp only [List.cons_append, lastDom] at h
      split at h
      · cases h
      · obtain ⟨w, hw⟩ := ih h; exact ⟨w, by simp [hw]⟩

end

section Numtree
open Verif.Num Verif.NumHeap
variable {w : Nat} {V : Type}

theorem num_claims {p : List Bool} {o o' : NumOp w V} {ms l : List (NumOp w V)} (ho : o.abs = .delete p) (ho' : o'.abs = .delete p)
    (h : NumReports (o' :: (ms ++ o :: l)) (some true)) : ∃ x ∈ ms, ∃ q v, p <+: q ∧ x.abs = .insert q v := by
  cases o' with
  | insert k b v => cases ho'
  | delete k b =>
    cases ho'
    obtain ⟨f, e, h⟩ := h
    cases e
    obtain ⟨q, v, h1, h2⟩ := h.1 rfl
    rw [List.map_append, List.map_cons, ho] at h2
    obtain ⟨u, hu⟩ := lastWrite_between h1 h2
    obtain ⟨x, hx, e⟩ := List.mem_map.1 hu
    exact ⟨x, hx, q, u, h1, e⟩

end Numtree

section Strtree
variable {V : Type}

theorem kv_claims {cmp : Bytes → Bytes → Int} (hc : LawfulCmp cmp) {k k1 k2 : Bytes} {ms l : List (KOp Bytes V)} (h1 : cmp k1 k = 0) (h2 : cmp k2 k = 0)
    (h : KVReports cmp (.delete k2 :: (ms ++ .delete k1 :: l)) (some true)) : ∃ x ∈ ms, ∃ k' v, cmp k' k = 0 ∧ x = .insert k' v := by
  have tr : ∀ a b c, cmp a b = 0 → cmp b c = 0 → cmp a c = 0 := fun a b c x y => by
    have x1 := hc.swap a b
    have x2 := hc.swap b a
    have y1 := hc.swap b c
    have y2 := hc.swap c b
    have z1 := hc.trans a b c (by omega) (by omega)
    have z2 := hc.trans c b a (by omega) (by omega)
    have z3 := hc.swap a c
    omega
  have sy : ∀ a b, cmp a b = 0 → cmp b a = 0 := fun a b x => by
    have x1 := hc.swap a b
    have x2 := hc.swap b a
    omega
  have h3 : cmp k1 k2 = 0 := tr _ _ _ h1 (sy _ _ h2)
  obtain ⟨k', v, a, b⟩ := lastWriteBy_between h3 (Option.some.inj h).symm
  exact ⟨_, a, k', v, tr _ _ _ b h2, rfl⟩

end Strtree

section Iptree
open Verif.IP
variable {V : Type}

theorem net_readings (l : List (Op V)) : ∃ ps : List (Op V × Option (Fam × POp V)), ps.map Prod.fst = l ∧ ∀ p ∈ ps, OpNet p.1 p.2 := by
  induction l with
  | nil => exact ⟨[], rfl, by simp⟩
  | cons op ops ih =>
    obtain ⟨ps, h1, h2⟩ := ih
    obtain ⟨o, ho⟩ := OpNet.total op
    refine ⟨(op, o) :: ps, by simp [h1], ?_⟩
    simp only [List.mem_cons, forall_eq_or_imp]
    exact ⟨ho, h2⟩

theorem netReports_flag {o : Op V} {l : List (Op V)} {b : Option Bool} {g : Fam} {p : List Bool} (ho : OpNet o (some (g, .delete p))) (h : NetReports (o :: l) b) : NetFlag o l b := by
  cases ho <;> exact h

theorem unetReports_flag {o : Op V} {l : List (Op V)} {b : Option Bool} {g : Fam} {p : List Bool} (ho : OpNet o (some (g, .delete p))) (h : UNetReports (o :: l) b) : UNetFlag o l b := by
  cases ho <;> exact h

theorem net_claims {g : Fam} {p : List Bool} {o o' : Op V} {ms l : List (Op V)} (ho : OpNet o (some (g, .delete p))) (ho' : OpNet o' (some (g, .delete p)))
    (h : NetReports (o' :: (ms ++ o :: l)) (some true)) : ∃ x ∈ ms, ∃ q v, p <+: q ∧ OpNet x (some (g, .insert q v)) := by
  obtain ⟨f, e, h⟩ := netReports_flag ho' h
  cases e
  obtain ⟨pm, m1, m2⟩ := net_readings ms
  obtain ⟨pl, l1, l2⟩ := net_readings l
  obtain ⟨g', p', q, v, e, h1, h2⟩ := (h (pm ++ (o, some (g, .delete p)) :: pl) (by simp [m1, l1]) (by
    intro x hx
    rcases List.mem_append.1 hx with hx | hx
    · exact m2 x hx
    · rcases List.mem_cons.1 hx with rfl | hx
      · exact ho
      · exact l2 x hx) _ ho').1 rfl
  cases e
  rw [List.filterMap_append, List.filterMap_cons_some (b := (g, POp.delete p)) (f := Prod.snd) rfl] at h2
  simp only [lastNet, List.filter_append, List.map_append, List.filter_cons, decide_true, if_true, List.map_cons] at h2
  obtain ⟨u, hu⟩ := lastWrite_between h1 h2
  obtain ⟨⟨g1, x⟩, hx, e⟩ := List.mem_map.1 hu
  obtain ⟨hx, eg⟩ := List.mem_filter.1 hx
  obtain ⟨y, hy, ey⟩ := List.mem_filterMap.1 hx
  simp only [decide_eq_true_eq] at eg e
  subst eg e
  refine ⟨y.1, by rw [← m1]; exact List.mem_map_of_mem hy, q, u, h1, ?_⟩
  rw [← ey]; exact m2 y hy

theorem uRun_between {g : Fam} {p : List Bool} {ms l : List (Fam × POp V)} {q : List Bool} {v : V} (hq : p <+: q)
    (h : UIP.uRun (ms ++ (g, .delete p) :: l) g q = some v)
    (he : g = .v4 ∨ 64 ≤ p.length ∨ UIP.uRun (ms ++ (g, .delete p) :: l) g p ≠ none) :
    ∃ q' w, p <+: q' ∧ (g, .insert q' w) ∈ ms := by
  by_cases hE : g = .v4 ∨ ¬ p.length < 64 ∨ (UIP.uRun l g p).isSome = true
  · clear he
    induction ms generalizing v with
    | nil =>
      simp only [List.nil_append, UIP.uRun, UIP.uStep] at h
      rw [if_pos ⟨trivial, hq, hE⟩] at h
      cases h
    | cons o ms ih =>
      obtain ⟨g', o⟩ := o
      cases o with
      | insert p' v' =>
        simp only [List.cons_append, UIP.uRun, UIP.uStep] at h
        split at h
        · rename_i e; obtain ⟨rfl, rfl⟩ := e; exact ⟨q, v', hq, by simp⟩
        · obtain ⟨a, b, c, d⟩ := ih h; exact ⟨a, b, c, by simp [d]⟩
      | delete p' =>
        simp only [List.cons_append, UIP.uRun, UIP.uStep] at h
        split at h
        · cases h
        · obtain ⟨a, b, c, d⟩ := ih h; exact ⟨a, b, c, by simp [d]⟩
  · have hn : ¬ (g = .v4 ∨ 64 ≤ p.length) := fun h => hE (h.imp id fun h => .inl (by omega))
    have h1 : UIP.uRun (ms ++ (g, .delete p) :: l) g p ≠ none := by
      rcases he with h | h | h
      · exact (hn (.inl h)).elim
      · exact (hn (.inr h)).elim
      · exact h
    have h0 : UIP.uRun l g p = none := by
      cases e : UIP.uRun l g p with
      | none => rfl
      | some x => exact (hE (.inr (.inr (by rw [e]; rfl)))).elim
    clear h hE hn he
    replace he := h1
    clear h1
    induction ms with
    | nil =>
      simp only [List.nil_append, UIP.uRun, UIP.uStep] at he
      split at he
      · exact (he rfl).elim
      · exact (he h0).elim
    | cons o ms ih =>
      obtain ⟨g', o⟩ := o
      cases o with
      | insert p' v' =>
        simp only [List.cons_append, UIP.uRun, UIP.uStep] at he
        split at he
        · rename_i e; obtain ⟨rfl, rfl⟩ := e; exact ⟨p, v', List.prefix_refl _, by simp⟩
        · obtain ⟨a, b, c, d⟩ := ih he; exact ⟨a, b, c, by simp [d]⟩
      | delete p' =>
        simp only [List.cons_append, UIP.uRun, UIP.uStep] at he
        split at he
        · exact (he rfl).elim
        · obtain ⟨a, b, c, d⟩ := ih he; exact ⟨a, b, c, by simp [d]⟩

theorem unet_claims {g : Fam} {p : List Bool} {o o' : Op V} {ms l : List (Op V)} (ho : OpNet o (some (g, .delete p))) (ho' : OpNet o' (some (g, .delete p)))
    (h : UNetReports (o' :: (ms ++ o :: l)) (some true)) : ∃ x ∈ ms, ∃ q v, p <+: q ∧ OpNet x (some (g, .insert q v)) := by
  obtain ⟨f, e, h⟩ := unetReports_flag ho' h
  cases e
  obtain ⟨pm, m1, m2⟩ := net_readings ms
  obtain ⟨pl, l1, l2⟩ := net_readings l
  obtain ⟨g', p', q, v, e, h1, h2, h3⟩ := (h (pm ++ (o, some (g, .delete p)) :: pl) (by simp [m1, l1]) (by
    intro x hx
    rcases List.mem_append.1 hx with hx | hx
    · exact m2 x hx
    · rcases List.mem_cons.1 hx with rfl | hx
      · exact ho
      · exact l2 x hx) _ ho').1 rfl
  cases e
  rw [List.filterMap_append, List.filterMap_cons_some (b := (g, POp.delete p)) (f := Prod.snd) rfl] at h2 h3
  obtain ⟨q', u, c, hu⟩ := uRun_between h1 h2 h3
  obtain ⟨y, hy, ey⟩ := List.mem_filterMap.1 hu
  refine ⟨y.1, by rw [← m1]; exact List.mem_map_of_mem hy, q', u, c, ?_⟩
  rw [← ey]; exact m2 y hy

end Iptree

section Dltree
open Verif.DL
variable {V : Type}

theorem opMeans_delete_unique {o : DL.Op V} {k : Bytes} {x : KOp Bytes V} (h : OpMeans o (.delete k)) (h' : OpMeans o x) : x = .delete k := by
  cases h with
  | delete a => cases h' with | delete b => rw [Option.some.inj (a.labelOf.symm.trans b.labelOf)]
  | rawDelete => cases h'; rfl

theorem label_claims {k : Bytes} {o o' : DL.Op V} {ms l : List (DL.Op V)} (ho : OpMeans o (.delete k)) (ho' : OpMeans o' (.delete k))
    (h : LabelReports (o' :: (ms ++ o :: l)) (some true)) : ∃ x ∈ ms, ∃ v, OpMeans x (.insert k v) := by
  replace h : LabelFlag o' (ms ++ o :: l) (some true) := by cases ho' <;> exact h
  obtain ⟨ps, k', e, hps, hk, h⟩ := h
  cases opMeans_delete_unique ho' hk
  obtain ⟨pm, pl, rfl, rfl, e2⟩ := List.map_eq_append_iff.1 e
  obtain ⟨⟨o1, x⟩, pl, rfl, rfl, rfl⟩ := List.map_eq_cons_iff.1 e2
  have hx : OpMeans o1 x := hps (o1, x) (by simp)
  cases opMeans_delete_unique ho hx
  rw [List.map_append, List.map_cons] at h
  obtain ⟨w, hw⟩ := lastWrite'_between (Option.some.inj h).symm
  obtain ⟨y, hy, ey⟩ := List.mem_map.1 hw
  refine ⟨y.1, List.mem_map_of_mem hy, w, ?_⟩
  rw [← ey]; exact hps y (by simp [hy])

end Dltree

section Domaintree
open Verif.DomTree Verif.DomHeap
variable {V : Type}

theorem dom_claims {ls : List Bytes} {d d' : Domain.Name} {ms l : List (Op V)} (hd : d.labels = some ls) (hd' : d'.labels = some ls)
    (h : DomReports (.delete d' :: (ms ++ .delete d :: l)) (some true)) : ∃ x ∈ ms, ∃ v, domOf x = some (.insert ls v) := by
  have h := h ls hd'
  rw [storedBy, List.filterMap_append, List.filterMap_cons_some (b := .delete ls) (by simp [domOf, hd])] at h
  obtain ⟨w, hw⟩ := lastDom_between (o := .delete ls) (q := ls) (if_pos rfl) (Option.some.inj h).symm
  obtain ⟨y, hy, ey⟩ := List.mem_filterMap.1 hw
  exact ⟨y, hy, w, ey⟩

theorem dom_sub_claims {ls : List Bytes} {d d' : Domain.Name} {ms l : List (Op V)} (hd : d.labels = some ls) (hd' : d'.labels = some ls)
    (h : DomReports (.deleteSub d' :: (ms ++ .deleteSub d :: l)) (some true)) : ∃ x ∈ ms, ∃ q v, ls <+: q ∧ domOf x = some (.insert q v) := by
  obtain ⟨f, e, h⟩ := h
  cases e
  obtain ⟨q, v, h1, h2⟩ := (h ls hd').1 rfl
  rw [storedBy, List.filterMap_append, List.filterMap_cons_some (b := .deleteSub ls) (by simp [domOf, hd])] at h2
  obtain ⟨w, hw⟩ := lastDom_between (o := .deleteSub ls) (q := q) (if_pos h1) (by rw [h2]; rfl)
  obtain ⟨y, hy, ey⟩ := List.mem_filterMap.1 hw
  exact ⟨y, hy, q, w, h1, ey⟩

end Domaintree

end Verif.Props
