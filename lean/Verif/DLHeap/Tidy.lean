import Verif.RBHeap.Tidy
import Verif.DLHeap.History

/-! # Keys and values of the cells of dltree, whatever the shape of the memory -/

namespace Verif.DLHeap
open Verif Verif.Heap Verif.Heap.Prog Verif.RB Verif.RBHeap Verif.DL Verif.Domain

variable {V : Type} [Inhabited V] {L : List (Bytes × V)}

/-- `Known` for the cells that are nodes. -/
abbrev KnownL (L : List (Bytes × V)) : LD V → Prop := (lm (V := V)).kR.Only (Known cmpLabel L)

/-- The label and value a call inserts. -/
def putsOf : DL.Op V → List (Bytes × V)
  | .insert k v => (labelOf k).toList.map fun l => (l, v)
  | .rawInsert k v => [(k, v)]
  | _ => []

theorem tree_known (d : Unit) : KnownL L (lm.kT.inj d) := fun _ hd => by cases hd

theorem rootP_tidy (t : Ptr) : (rootP (lm (V := V)) t).Tidy (KnownL L) fun _ => True := tidy_lift_other tree_known _
theorem newTreeP_tidy (t : Ptr) : (newTreeP (lm (V := V)) t).Tidy (KnownL L) fun _ => True := tidy_lift_other tree_known _
theorem setRootP_tidy (t r : Ptr) : (setRootP (lm (V := V)) t r).Tidy (KnownL L) fun _ => True := tidy_lift_other tree_known _
theorem rootOrNilP_tidy (t : Ptr) : (rootOrNilP (lm (V := V)) t).Tidy (KnownL L) fun _ => True := Tidy.ite (rootP_tidy t) trivial

/-- The program leaves a memory of known cells, also if it panics. -/
abbrev Leaves (L : List (Bytes × V)) {α : Type} (p : Prog (LD V) α) : Prop := ∀ h : Heap (LD V), h.All (KnownL L) → p.pwp (Heap.All (KnownL L)) (fun _ h' => h'.All (KnownL L)) h

theorem leaves_of_tidy {α : Type} {P : α → Prop} {p : Prog (LD V) α} (hp : p.Tidy (KnownL L) P) : Leaves L p := fun _ hh => pwp_mono (Tidy.pwp hp hh) fun _ _ hx => hx.2

theorem leaves_bind {α β : Type} {p : Prog (LD V) α} {f : α → Prog (LD V) β} (hp : Leaves L p) (hf : ∀ x, Leaves L (f x)) : Leaves L (p >>= f) :=
  fun h hh => pwp_bind.mpr (pwp_mono (hp h hh) fun x h' hx => hf x h' hx)

theorem leaves_lift {α : Type} {p : Prog (RD Bytes V) α}
    (hp : ∀ h : Heap (RD Bytes V), h.All (Known cmpLabel L) → p.pwp (Heap.All (Known cmpLabel L)) (fun _ h' => h'.All (Known cmpLabel L)) h) : Leaves L (p.lift lm.kR) :=
  fun _ hh => pwp_mono (pwp_lift lm.kR (B := Heap.All (KnownL L)) (hp _ (lm.kR.all_view.2 hh)) fun _ hx => lm.kR.all_view.1 hx) fun _ _ hx => lm.kR.all_view.1 hx

theorem RawInsertP_leaves {f : Nat} {t : Ptr} {key : Bytes} {value : V} (hk : (key, value) ∈ L) : Leaves L (RawInsertP lm f t key value) :=
  leaves_bind (leaves_of_tidy (rootOrNilP_tidy t)) fun n => leaves_bind (leaves_lift fun _ hh => insertP_known (cmpLabel_lawful.refl _) hk f n hh) fun x =>
    leaves_of_tidy (newTreeP_tidy x)

theorem RawInplaceInsertP_leaves {f : Nat} {t : Ptr} {key : Bytes} {value : V} (hk : (key, value) ∈ L) : Leaves L (RawInplaceInsertP lm f t key value) :=
  leaves_bind (leaves_of_tidy (rootP_tidy t)) fun n => leaves_bind (leaves_lift fun _ hh => inplaceInsertP_known (cmpLabel_lawful.refl _) hk f n hh) fun x =>
    leaves_of_tidy (setRootP_tidy t x)

theorem labelP_bind {α : Type} {key : Bytes} {p : Bytes → Prog (LD V) α} (hp : ∀ l, labelOf key = some l → Leaves L (p l)) : Leaves L (labelP key >>= p) := by
  unfold labelP
  split
  · rename_i l hl; exact hp l hl
  · exact fun _ hh => hh

theorem RawDeleteP_leaves {f : Nat} {t : Ptr} {key : Bytes} : Leaves L (RawDeleteP (lm (V := V)) f t key) := by
  unfold RawDeleteP
  split
  · exact fun _ hh => hh
  · exact leaves_bind (leaves_of_tidy (rootP_tidy t)) fun n => leaves_bind (leaves_lift fun _ hh => delP_known f n key hh) fun x =>
      leaves_bind (leaves_of_tidy (newTreeP_tidy x.1)) fun t' _ hh => hh

theorem DeleteP_leaves {f : Nat} {t : Ptr} {key : Bytes} : Leaves L (DeleteP (lm (V := V)) f t key) := by
  unfold DeleteP
  split
  · exact fun _ hh => hh
  · exact labelP_bind fun _ _ => RawDeleteP_leaves

theorem cowP_leaves {f : Nat} {o : DL.Op V} (ho : ∀ x ∈ putsOf o, x ∈ L) (r : Ptr) : Leaves L (cowP f o r) := by
  cases o with
  | insert k v =>
    exact leaves_bind (leaves_of_tidy (rootOrNilP_tidy r)) fun n => labelP_bind fun l hl =>
      leaves_bind (leaves_lift fun _ hh => insertP_known (cmpLabel_lawful.refl _) (ho (l, v) (by simp [putsOf, hl])) f n hh) fun x => leaves_of_tidy (newTreeP_tidy x)
  | rawInsert k v => exact RawInsertP_leaves (ho _ (by simp [putsOf]))
  | delete k => exact leaves_bind DeleteP_leaves fun _ _ hh => hh
  | rawDelete k => exact leaves_bind RawDeleteP_leaves fun _ _ hh => hh

theorem inpP_leaves {f : Nat} {o : DL.Op V} (ho : ∀ x ∈ putsOf o, x ∈ L) (r : Ptr) : Leaves L (inpP f o r) := by
  cases o with
  | insert k v =>
    exact leaves_bind (labelP_bind fun l hl => RawInplaceInsertP_leaves (ho (l, v) (by simp [putsOf, hl]))) fun _ _ hh => hh
  | rawInsert k v => exact leaves_bind (RawInplaceInsertP_leaves (ho _ (by simp [putsOf]))) fun _ _ hh => hh
  | delete k => exact fun _ hh => hh
  | rawDelete k => exact fun _ hh => hh

/-- The labels and values of a history. -/
def putsIn : SOp (DL.Op V) × Bool → List (Bytes × V)
  | (.cow _ o, _) => putsOf o
  | (.inp _ o, _) => putsOf o
  | _ => []

theorem exec_all_known {st : Bool} {f : Nat} {ops : List (SOp (DL.Op V) × Bool)} {s : OStore (LD V) Ptr} (he : OStore.init.execR (dlImpl st f) ops = some s) :
    s.heap.All (KnownL (ops.flatMap putsIn)) := by
  refine OStore.execR_all (I := dlImpl st f) ?_ ?_ ?_ (s := OStore.init) (fun a c hc => by cases hc) he
  · intro h hh
    show (if st then newTreeP lm none else pure none : Prog (LD V) Ptr).pwp _ _ _
    split
    · exact leaves_of_tidy (newTreeP_tidy none) h hh
    · exact hh
  · exact fun i o b ho r h hh => cowP_leaves (fun x hx => List.mem_flatMap.2 ⟨_, ho, hx⟩) r h hh
  · exact fun i o b ho r h hh => inpP_leaves (fun x hx => List.mem_flatMap.2 ⟨_, ho, hx⟩) r h hh

omit [Inhabited V] in
theorem mem_puts {ops : List (SOp (DL.Op V) × Bool)} {k : Bytes} {v : V} (h : (k, v) ∈ ops.flatMap putsIn) :
    ∃ i o b, ((SOp.cow i o, b) ∈ ops ∨ (SOp.inp i o, b) ∈ ops) ∧ (o = .rawInsert k v ∨ ∃ s, o = .insert s v ∧ labelOf s = some k) := by
  obtain ⟨⟨op, b⟩, ho, hk⟩ := List.mem_flatMap.1 h
  have key : ∀ o : DL.Op V, (k, v) ∈ putsOf o → o = .rawInsert k v ∨ ∃ s, o = .insert s v ∧ labelOf s = some k := by
    intro o ho
    cases o with
    | insert s w =>
      simp only [putsOf, List.mem_map, Option.mem_toList, Prod.mk.injEq] at ho
      obtain ⟨l, hl, rfl, rfl⟩ := ho
      exact .inr ⟨s, rfl, hl⟩
    | rawInsert k' w => rw [putsOf, List.mem_singleton] at ho; cases ho; exact .inl rfl
    | delete s => cases ho
    | rawDelete s => cases ho
  cases op with
  | fresh => cases hk
  | drop i => cases hk
  | cow i o => exact ⟨i, o, b, .inl ho, key o hk⟩
  | inp i o => exact ⟨i, o, b, .inr ho, key o hk⟩

theorem answer_RawGetP {st : Bool} {f g : Nat} {ops : List (SOp (DL.Op V) × Bool)} {s : OStore (LD V) Ptr} (he : OStore.init.execR (dlImpl st f) ops = some s) {t : Ptr}
    {key : Bytes} {v : V} (hg : answer (RawGetP lm g t key) s.heap = some (some v)) : v = default ∨ (key, v) ∈ ops.flatMap putsIn := by
  have hh := exec_all_known he
  have : (RawGetP (lm (V := V)) g t key).pwp (fun _ => True) (fun r _ => ∀ v, r = some v → v = default ∨ (key, v) ∈ ops.flatMap putsIn) s.heap := by
    unfold RawGetP
    split
    · exact fun v hv => by cases hv
    · refine pwp_bind.mpr (pwp_weak (Tidy.pwp (rootP_tidy t) hh) fun n h' hx => ?_)
      refine pwp_weak (pwp_lift lm.kR (B := fun _ => True) (Tidy.pwp (getP_known (cmp := cmpLabel) g n) (lm.kR.all_view.2 hx.2)) fun _ _ => trivial) fun r _ hr v hv => ?_
      obtain ⟨d, hd, rfl, hk⟩ := hr.1 v hv
      refine hd.2.imp id fun ⟨k, hm, e⟩ => ?_
      rw [← cmpLabel_eq_zero.1 hk, cmpLabel_eq_zero.1 e]
      exact hm
  unfold answer at hg
  split at hg
  · rename_i y h' hr
    cases hg
    exact pwp_run this hr v rfl
  · cases hg

theorem answer_RawEnumerateP {st : Bool} {f g : Nat} {ops : List (SOp (DL.Op V) × Bool)} {s : OStore (LD V) Ptr} (he : OStore.init.execR (dlImpl st f) ops = some s) {t : Ptr}
    {l : List (Bytes × V)} (hg : answer (RawEnumerateP lm g t) s.heap = some l) :
    ∀ k v, (k, v) ∈ l → (k = [] ∨ ∃ w, (k, w) ∈ ops.flatMap putsIn) ∧ (v = default ∨ (k, v) ∈ ops.flatMap putsIn) := by
  have hh := exec_all_known he
  have : (RawEnumerateP (lm (V := V)) g t).pwp (fun _ => True) (fun l _ => ∀ k v, (k, v) ∈ l → (k = [] ∨ ∃ w, (k, w) ∈ ops.flatMap putsIn) ∧
      (v = default ∨ (k, v) ∈ ops.flatMap putsIn)) s.heap := by
    unfold RawEnumerateP
    split
    · exact fun k v hv => by cases hv
    · refine pwp_bind.mpr (pwp_weak (Tidy.pwp (rootP_tidy t) hh) fun n h' hx => ?_)
      refine pwp_weak (pwp_lift lm.kR (B := fun _ => True) (Tidy.pwp (enumerateP_known (cmp := cmpLabel) g n) (lm.kR.all_view.2 hx.2)) fun _ _ => trivial) fun r _ hr k v hv => ?_
      obtain ⟨d, hd, h1, h2⟩ := hr.1 (k, v) hv
      subst h1 h2
      refine ⟨hd.1, hd.2.imp id fun ⟨k', hm, e⟩ => ?_⟩
      rw [cmpLabel_eq_zero.1 e]
      exact hm
  unfold answer at hg
  split at hg
  · rename_i y h' hr
    cases hg
    exact pwp_run this hr
  · cases hg

end Verif.DLHeap
