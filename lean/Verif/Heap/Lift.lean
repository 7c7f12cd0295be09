import Verif.Heap.Interleave

/-!
# One memory for several node types

Programs over nodes of one type, used in a memory whose cells have one of several types.
-/

namespace Verif.Heap
open Prog
variable {D E α β : Type}

/-- One of the types of a memory. -/
structure Kind (D E : Type) where
  inj : D → E
  prj : E → Option D
  prj_inj : ∀ d, prj (inj d) = some d
  inj_prj : ∀ e d, prj e = some d → e = inj d

/-- A cell of another type. -/
def Cell.map (f : D → E) (c : Cell D) : Cell E := ⟨f c.d, c.c0, c.c1⟩

variable (K : Kind D E)

/-- A cell seen as one of type `D`. -/
def Kind.cell (c : Cell E) : Option (Cell D) :=
  match K.prj c.d with
  | some d => some ⟨d, c.c0, c.c1⟩
  | none => none

/-- The part of the memory holding cells of type `D`. -/
def Kind.view (h : Heap E) : Heap D := ⟨fun a => (h.mem a).bind K.cell, h.next⟩

/-- The program in the larger memory.  A cell of another type cannot be met in Go; it is a panic here. -/
def Prog.lift : Prog D α → Prog E α
  | .ret x => .ret x
  | .stop e => .stop e
  | .read a k => .read a fun c =>
    match K.cell c with
    | some c => (k c).lift
    | none => .stop .panic
  | .write a c k => .write a (c.map K.inj) k.lift
  | .alloc c k => .alloc (c.map K.inj) fun a => (k a).lift

theorem Kind.cell_map (c : Cell D) : K.cell (c.map K.inj) = some c := by
  simp [Kind.cell, Cell.map, K.prj_inj]

theorem Kind.map_cell {c : Cell E} {d : Cell D} (h : K.cell c = some d) : c = d.map K.inj := by
  unfold Kind.cell at h
  split at h
  · cases h
    have := K.inj_prj c.d _ (by assumption)
    cases c; simp_all [Cell.map]
  · cases h

@[simp] theorem Kind.view_next (h : Heap E) : (K.view h).next = h.next := rfl

theorem Kind.view_mem {h : Heap E} {a : Addr} {c : Cell D} : (K.view h).mem a = some c ↔ h.mem a = some (c.map K.inj) := by
  simp only [Kind.view]
  cases e : h.mem a with
  | none => simp
  | some x =>
    simp only [Option.bind_some, Option.some.injEq]
    constructor
    · intro q; exact K.map_cell q
    · rintro rfl; exact K.cell_map c

theorem Kind.view_put (h : Heap E) (a : Addr) (c : Cell D) : K.view (h.put a (c.map K.inj)) = (K.view h).put a c := by
  simp only [Kind.view, Heap.put, Heap.mk.injEq, and_true]
  funext x
  split
  · simp [K.cell_map]
  · rfl

theorem Kind.view_push (h : Heap E) (c : Cell D) : K.view (h.push (c.map K.inj)) = (K.view h).push c := by
  simp only [Kind.view, Heap.push, Heap.mk.injEq, and_true]
  funext x
  by_cases e : x = h.next <;> simp [e, K.cell_map]

/-- What a program does in its part of the memory it does in the larger memory. -/
theorem wp_lift {W : Addr → Prop} {p : Prog D α} {Q : α → Heap D → Prop} {h : Heap E} (hp : wp W p Q (K.view h)) :
    wp W (p.lift K) (fun x h' => Q x (K.view h')) h := by
  induction p generalizing h with
  | ret x => exact hp
  | stop e => exact hp
  | read a k ih =>
    obtain ⟨c, h1, h2⟩ := hp
    have h3 := K.view_mem.1 h1
    simp only [Prog.lift, wp]
    refine ⟨_, h3, ?_⟩
    rw [K.cell_map]
    exact ih c h2
  | write a c k ih =>
    obtain ⟨h1, ⟨c0, h2⟩, h3⟩ := hp
    refine ⟨h1, ⟨_, K.view_mem.1 h2⟩, ih ?_⟩
    rw [K.view_put]; exact h3
  | alloc c k ih =>
    refine ih _ ?_
    rw [K.view_push]; exact hp

theorem Prog.ReadOnly.lift {p : Prog D α} (hp : p.ReadOnly) : (p.lift K).ReadOnly := by
  induction p with
  | ret x => trivial
  | stop e => trivial
  | read a k ih =>
    simp only [Prog.lift, Prog.ReadOnly]
    intro c
    split
    · exact ih _ (hp _)
    · trivial
  | write a c k => exact hp.elim
  | alloc c k => exact hp.elim

/-- Reading programs leave the larger memory as it is. -/
theorem wp_readOnly {W : Addr → Prop} {p : Prog D α} (ro : p.ReadOnly) {Q : α → Heap D → Prop} {h : Heap D} (hp : wp W p Q h) :
    wp W p (fun x h' => Q x h' ∧ h' = h) h := by
  induction p with
  | ret x => exact ⟨hp, rfl⟩
  | stop e => exact hp
  | read a k ih => obtain ⟨c, h1, h2⟩ := hp; exact ⟨c, h1, ih c (ro c) h2⟩
  | write a c k => exact ro.elim
  | alloc c k => exact ro.elim

theorem Kind.view_ok {h : Heap E} (hk : h.Ok) : (K.view h).Ok := by
  intro a ha
  simp only [Kind.view]
  rw [hk a ha]; rfl

/-- Cells unchanged in the larger memory are unchanged in the part. -/
theorem Kind.view_frame {h h' : Heap E} {a : Addr} (e : h'.mem a = h.mem a) : (K.view h').mem a = (K.view h).mem a := by
  simp [Kind.view, e]

/-- A program on a part of the memory, with what it leaves alone. -/
theorem on_spec {W : Addr → Prop} {p : Prog D α} {Q : α → Heap D → Prop} {h : Heap E} (hp : wp W p Q (K.view h)) :
    wp W (p.lift K) (fun x h' => Q x (K.view h') ∧ h.next ≤ h'.next ∧ ∀ a, a < h.next → ¬ W a → h'.mem a = h.mem a) h :=
  wp_frame (wp_lift K hp)

/-- A reading program on a part of the memory. -/
theorem on_read {W : Addr → Prop} {p : Prog D α} (ro : p.ReadOnly) {x : α} {h : Heap E}
    (hp : wp (fun _ => False) p (fun r h' => h' = K.view h ∧ r = x) (K.view h)) : wp W (p.lift K) (fun r h' => h' = h ∧ r = x) h := by
  refine wp_mono (fun _ q => q.elim) ?_ (wp_readOnly (ro.lift K) (wp_lift K hp))
  rintro r h' ⟨⟨_, q⟩, e⟩
  exact ⟨e, q⟩

end Verif.Heap
