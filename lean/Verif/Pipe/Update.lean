import Verif.Pipe.UpdateModel
import Verif.Pipe.Loops
import Verif.IPHeap.Touch

/-!
# UpdateDescendants ends the same way under every schedule

The bodies of the loops write only values, which numtree's goroutines do not read; so what the goroutines see (`P`) stays the same
throughout.
-/

namespace Verif.Pipe
open Verif Verif.Heap Verif.Heap.Prog Verif.Heap.ATree Verif.Num Verif.NumHeap Verif.IP Verif.IPHeap

variable {D E X B α β σ : Type} {w : Nat} {W : Type} {φ : Cell E → X}

theorem lift_bind (K : Kind D E) (p : Prog D α) (k : α → Prog D β) : (p >>= k).lift K = p.lift K >>= fun x => (k x).lift K := by
  show (p.bind k).lift K = (p.lift K).bind _
  induction p with
  | ret x => rfl
  | stop e => rfl
  | read a p ih =>
    simp only [Prog.bind, Prog.lift]
    congr 1; funext c
    cases K.cell c with
    | none => rfl
    | some c => exact ih c
  | write a c p ih => simp only [Prog.bind, Prog.lift, ih]
  | alloc c p ih => simp only [Prog.bind, Prog.lift, ih]

/-- A run of two pieces. -/
theorem run_two {p : Prog E α} {k : α → Prog E β} {h h' : Heap E} {x : β} (hr : (p >>= k).run h = .ok (x, h')) :
    ∃ y h1, p.run h = .ok (y, h1) ∧ (k y).run h1 = .ok (x, h') := by
  rw [Prog.run_bind] at hr
  cases e : p.run h with
  | error e' => rw [e] at hr; cases hr
  | ok yh => rw [e] at hr; exact ⟨yh.1, yh.2, rfl, hr⟩

theorem run_load {K : Kind D E} {n : Ptr} {c : Cell D} {h h' : Heap E} (hr : ((load n).lift K).run h = .ok (c, h')) :
    h' = h ∧ ∃ a, n = some a ∧ h.mem a = some (c.map K.inj) := by
  cases n with
  | none => cases hr
  | some a =>
    simp only [load, Prog.lift, Prog.run] at hr
    cases e : h.mem a with
    | none => rw [e] at hr; cases hr
    | some c' =>
      simp only [e] at hr
      cases e' : K.cell c' with
      | none => rw [e'] at hr; cases hr
      | some d =>
        simp only [e', Prog.run, Except.ok.injEq, Prod.mk.injEq] at hr
        obtain ⟨rfl, rfl⟩ := hr
        exact ⟨rfl, a, rfl, by rw [e, K.map_cell e']⟩

/-- The goroutines see `P` in memory `h`. -/
def Seen (φ : Cell E → X) (P : Pin X) (h : Heap E) : Prop := h.Ok ∧ ∀ a, (h.mem a).map φ = P a

variable {P : Pin X} {h : Heap E}

theorem seen_self (hk : h.Ok) : Seen φ (fun a => (h.mem a).map φ) h := ⟨hk, fun _ => rfl⟩

theorem Seen.at (hs : Seen φ P h) {a : Addr} {c : Cell E} (hc : h.mem a = some c) : P a = some (φ c) := by
  rw [← hs.2 a, hc]; rfl

theorem Seen.holds (hs : Seen φ P h) : Holds φ P h := by
  intro a x hx
  rw [← hs.2 a] at hx
  obtain ⟨c, h1, h2⟩ := Option.map_eq_some_iff.1 hx
  exact ⟨hs.1.lt h1, c, h1, h2⟩

theorem Seen.put (hs : Seen φ P h) {a : Addr} {c0 c : Cell E} (hc : h.mem a = some c0) (e : φ c0 = φ c) : Seen φ P (h.put a c) := by
  have hlt := hs.1.lt hc
  refine ⟨fun b hb => ?_, fun b => ?_⟩
  · have : b ≠ a := by intro q; subst q; exact absurd hb (by simp [Heap.put]; omega)
    rw [Heap.mem_put, if_neg this]
    exact hs.1 b hb
  · rw [Heap.mem_put]
    split
    · rename_i q; subst q
      rw [hs.at hc, e]; rfl
    · exact hs.2 b

/-- Cells that look the same to goroutines. -/
def LooksSame (φ : Cell E → X) (c c' : Cell E) : Prop := φ c = φ c'

theorem Seen.run {p : Prog E β} {x : β} {h' : Heap E} (hs : Seen φ P h) (ht : p.Touch (LooksSame φ) h) (hr : p.run h = .ok (x, h')) : Seen φ P h' := by
  induction p generalizing h with
  | ret y => cases hr; exact hs
  | stop e => cases hr
  | read a k ih =>
    simp only [Prog.run] at hr
    cases hm : h.mem a with
    | none => simp [hm] at hr
    | some c => rw [hm] at hr; exact ih c hs (ht c hm) hr
  | write a c k ih =>
    obtain ⟨⟨c0, e1, e2⟩, ht⟩ := ht
    exact ih (hs.put e1 e2) ht hr
  | alloc c k => exact ht.elim

/-- All goroutines under way see `P`. -/
def Only (P : Pin X) (q : Chans X B) : Prop := ∀ p l, some (p, l) ∈ q → p = P

theorem Only.within {q q' : Chans X B} (h1 : Only P q) (h2 : Within q P q') : Only P q' := by
  intro p l hp
  rcases h2 p l hp with rfl | ⟨l', hl⟩
  · rfl
  · exact h1 p l' hl

variable {Q : α → Heap E → Prop}

/-- A program that changes nothing goroutines see, by its run alone. -/
theorem does_run {q : Chans X B} {p : Prog E β} {k : β → Main E X B α} {x : β} {h' : Heap E} (hq : Only P q) (hs : Seen φ P h)
    (ht : p.Touch (LooksSame φ) h) (hr : p.run h = .ok (x, h')) (hk : Seen φ P h' → Does φ Q q (k x) h') : Does φ Q q (.prog p k) h := by
  induction p generalizing h with
  | ret y => cases hr; exact hk hs
  | stop e => cases hr
  | read a p ih =>
    simp only [Prog.run] at hr
    cases hm : h.mem a with
    | none => simp [hm] at hr
    | some c => rw [hm] at hr; exact does_read hm (ih c hs (ht c hm) hr)
  | write a c p ih =>
    obtain ⟨⟨c0, e1, e2⟩, ht⟩ := ht
    intro t hto
    obtain ⟨N, hN⟩ := ih (hs.put e1 e2) ht hr t hto
    refine ⟨N + 1, Nat.zero_le _, fun p' l y hm hy => ?_, N, rfl, hN⟩
    obtain rfl := hq p' l (mem_append_closed hto hm)
    rw [hs.at e1, e2] at hy
    exact Option.some.inj hy
  | alloc c p => exact ht.elim

/-- The body of a loop over the nodes `l`, one after the other. -/
def visitAll (visit : Addr → σ → Prog E σ) : List Addr → σ → Prog E σ
  | [], s => pure s
  | a :: l, s => visit a s >>= visitAll visit l

theorem visitAll_append {visit : Addr → σ → Prog E σ} {l m : List Addr} {s s1 s2 : σ} {h h1 h2 : Heap E} (e1 : (visitAll visit l s).run h = .ok (s1, h1))
    (e2 : (visitAll visit m s1).run h1 = .ok (s2, h2)) : (visitAll visit (l ++ m) s).run h = .ok (s2, h2) := by
  induction l generalizing s h with
  | nil => cases e1; exact e2
  | cons a l ih =>
    obtain ⟨y, h', q1, q2⟩ := run_two (p := visit a s) e1
    show (visit a s >>= visitAll visit (l ++ m)).run h = _
    rw [Prog.run_bind, q1]
    exact ih q2

/-- The main program's loop body does what the program `visit` does. -/
def Does' (φ : Cell E → X) (P : Pin X) (body : B → σ → (σ → Main E X B α) → Main E X B α) (visit : B → σ → Prog E σ) : Prop :=
  ∀ {Q : α → Heap E → Prop} {b s h s' h' k} {q : Chans X B}, Only P q → Seen φ P h → (visit b s).run h = .ok (s', h') →
    (Seen φ P h' → Does φ Q q (k s') h') → Does φ Q q (body b s k) h

theorem does_visits {body : Addr → σ → (σ → Main E X Addr α) → Main E X Addr α} {visit : Addr → σ → Prog E σ}
    (hb : Does' φ P body visit) {q : Chans X Addr} {i rounds : Nat} {l : List Addr} {s s' : σ} {h h' : Heap E} {k : σ → Main E X Addr α} (hl : l.length < rounds)
    (hi : q[i]? = some (some (P, l))) (hq : Only P q) (hs : Seen φ P h) (hr : (visitAll visit l s).run h = .ok (s', h'))
    (hk : Seen φ P h' → Does φ Q (q.set i none) (k s') h') : Does φ Q q (Main.range i body rounds s k) h := by
  refine does_range (q0 := q) (R := fun l s h => Seen φ P h ∧ (visitAll visit l s).run h = .ok (s', h')) hl hi (fun p l hp => .inr ⟨l, hp⟩) ⟨hs, hr⟩ ?_ ?_
  · rintro b l s h q' k hw ⟨hs, hr⟩ hk
    obtain ⟨s1, h1, r1, r2⟩ := run_two (p := visit b s) hr
    exact hb (hq.within hw) hs r1 fun hs' => hk s1 h1 ⟨hs', r2⟩
  · rintro s1 h1 ⟨hs, hr⟩
    cases hr
    exact hk hs


theorem does_go {q : Chans X B} {g : Gen X B} {k : Nat → Main E X B α} {l : List B} {n : Nat} (hs : Holds φ P h) (hg : g.out P [] = some (l, n))
    (hk : ∀ t : Chans X B, (∀ o ∈ t, o = none) → Does φ Q (q ++ t ++ [some (P, l)]) (k (q ++ t).length) h) : Does φ Q q (.go g k) h := by
  intro t ht
  obtain ⟨N, hN⟩ := hk t ht [] (by simp)
  rw [List.append_nil] at hN
  exact ⟨N + n + 1, P, l, n, N, hs, hg, rfl, hN⟩

theorem does_recv {q : Chans X B} {i : Nat} {k : Option B → Main E X B α} {b : B} {l : List B} (hi : q[i]? = some (some (P, b :: l)))
    (hk : Does φ Q (q.set i (some (P, l))) (k (some b)) h) : Does φ Q q (.recv i k) h := by
  intro t ht
  have hlt := (List.getElem?_eq_some_iff.1 hi).1
  obtain ⟨N, hN⟩ := hk t ht
  refine ⟨N + 1, .inl ⟨P, b, l, N, by rw [List.getElem?_append_left hlt, hi], rfl, ?_⟩⟩
  rw [append_set hlt]
  exact hN

theorem does_closed {q t : Chans X B} {m : Main E X B α} {x : Option (Pin X × List B)} (ht : ∀ o ∈ t, o = none) (hm : Does φ Q q m h) :
    Does φ Q ((q ++ t ++ [x]).set (q ++ t).length none) m h := by
  rw [List.set_append_right _ _ (Nat.le_refl _), Nat.sub_self]
  intro u hu
  rw [List.append_assoc, List.append_assoc]
  refine hm _ fun o ho => ?_
  simp only [List.set_cons_zero, List.cons_append, List.nil_append, List.mem_append, List.mem_cons] at ho
  rcases ho with ho | rfl | ho
  · exact ht o ho
  · rfl
  · exact hu o ho

theorem Only.more {q t : Chans X B} (hq : Only P q) (ht : ∀ o ∈ t, o = none) (l : List B) : Only P (q ++ t ++ [some (P, l)]) := by
  intro p l' hp
  rcases List.mem_append.1 hp with hp | hp
  · exact hq p l' (mem_append_closed ht hp)
  · simp at hp; exact hp.1

/-! ## numtree's walk -/

section Walk
variable {φ : Cell E → Fields} {P : Pin Fields} {K : Kind (ND w W) E} {Q : α → Heap E → Prop}

/-- The walk reads `Leaf` and the children through `φ`. -/
def Reads (φ : Cell E → Fields) (K : Kind (ND w W) E) : Prop := ∀ c : Cell (ND w W), φ (c.map K.inj) = some (c.d.leaf, c.c0, c.c1)

/-- A program on nodes of one kind, as the body of a loop. -/
abbrev onNode (K : Kind (ND w W) E) (visit : Ptr → σ → Prog (ND w W) σ) (a : Addr) (s : σ) : Prog E σ := (visit (some a) s).lift K

/-- The bodies change nothing that goroutines see. -/
def Quiet (φ : Cell E → Fields) (K : Kind (ND w W) E) (visit : Ptr → σ → Prog (ND w W) σ) : Prop :=
  ∀ n s h, ((visit n s).lift K).Touch (LooksSame φ) h

/-- The addresses of the leaf nodes. -/
abbrev spots (A : ATree Bool) : List Addr := (leaves id A).map Prod.fst

/-- A run from `h` to `h'` that visits the leaves of the tree at `n`. -/
def ShapeRun (φ : Cell E → Fields) (P : Pin Fields) (K : Kind (ND w W) E) (visit : Ptr → σ → Prog (ND w W) σ) (f : Nat) (n : Ptr) (s : σ) (h : Heap E) (s' : σ)
    (h' : Heap E) : Prop :=
  ∃ A : ATree Bool, ptr A = n ∧ A.height ≤ f ∧ Pinned id id P A ∧ Seen φ P h' ∧ (visitAll (onNode K visit) (spots A) s).run h = .ok (s', h')

theorem walk_shape (hφ : Reads φ K) {visit : Ptr → σ → Prog (ND w W) σ} (hv : Quiet φ K visit) : ∀ {f : Nat} {n : Ptr} {s s' : σ} {h h' : Heap E}, Seen φ P h →
    ((walkP visit f n s).lift K).run h = .ok (s', h') → ShapeRun φ P K visit f n s h s' h' := by
  intro f
  induction f with
  | zero => intro n s s' h h' _ hr; cases hr
  | succ f ih =>
    intro n s s' h h' hs hr
    have child : ∀ {n : Ptr} {s s' : σ} {h h' : Heap E}, Seen φ P h → ((ifNotNil n s (walkP visit f n s)).lift K).run h = .ok (s', h') →
        ShapeRun φ P K visit f n s h s' h' := by
      intro n s s' h h' hs hr
      cases n with
      | none => cases hr; exact ⟨.nil, rfl, by simp [BTree.height], trivial, hs, rfl⟩
      | some a => exact ih hs hr
    unfold walkP at hr
    rw [lift_bind] at hr
    obtain ⟨c, h0, r0, hr1⟩ := run_two hr
    clear hr
    obtain ⟨rfl, a, rfl, hc⟩ := run_load r0
    have hP := hs.at hc
    rw [hφ c] at hP
    have hs1 : ∃ s1 h1, Seen φ P h1 ∧ (visitAll (onNode K visit) (if c.d.leaf then [a] else []) s).run h0 = .ok (s1, h1) ∧
        ((ifNotNil c.c0 s1 (walkP visit f c.c0 s1) >>= fun s => ifNotNil c.c1 s (walkP visit f c.c1 s)).lift K).run h1 = .ok (s', h') := by
      dsimp only at hr1
      split at hr1
      · rename_i e
        rw [lift_bind] at hr1
        obtain ⟨s1, h1, r1, r2⟩ := run_two hr1
        refine ⟨s1, h1, hs.run (hv _ _ _) r1, ?_, r2⟩
        rw [e]
        show (onNode K visit a s >>= fun s => pure s).run h0 = _
        rw [Prog.run_bind, r1]; rfl
      · rename_i e
        rw [if_neg e]
        exact ⟨s, h0, hs, rfl, hr1⟩
    obtain ⟨s1, h1, hs1, hv1, hr⟩ := hs1
    rw [lift_bind] at hr
    obtain ⟨s2, h2, r2, r3⟩ := run_two hr
    obtain ⟨L, l1, l2, l3, l4, l5⟩ := child hs1 r2
    obtain ⟨R, q1, q2, q3, q4, q5⟩ := child l4 r3
    refine ⟨.node (a, c.d.leaf) L R, rfl, ?_, ⟨⟨_, hP, by simp [l1, q1]⟩, l3, q3⟩, q4, ?_⟩
    · simp only [BTree.height]; omega
    · have e : spots (.node (a, c.d.leaf) L R) = (if c.d.leaf then [a] else []) ++ spots L ++ spots R := by
        simp only [spots, leaves, List.map_append, id]
        cases c.d.leaf <;> rfl
      rw [e]
      exact visitAll_append (visitAll_append hv1 l5) q5

theorem child_shape (hφ : Reads φ K) {visit : Ptr → σ → Prog (ND w W) σ} (hv : Quiet φ K visit) {f : Nat} {n : Ptr} {s s' : σ} {h h' : Heap E} (hs : Seen φ P h)
    (hr : ((ifNotNil n s (walkP visit f n s)).lift K).run h = .ok (s', h')) : ShapeRun φ P K visit f n s h s' h' := by
  cases n with
  | none => cases hr; exact ⟨.nil, rfl, by simp [BTree.height], trivial, hs, rfl⟩
  | some a => exact walk_shape hφ hv hs hr

theorem spots_lt {A : ATree Bool} {f : Nat} (h : A.height ≤ f) : (spots A).length < 2 ^ f := by
  rw [spots, List.length_map]
  exact Nat.lt_of_lt_of_le (Nat.lt_of_le_of_lt (leaves_length id A) (size_height A)) (Nat.pow_le_pow_right (by omega) h)

/-- A loop over the channel of a nested tree. -/
theorem does_walk (hφ : Reads φ K) {visit : Ptr → σ → Prog (ND w W) σ} (hv : Quiet φ K visit) {body : Addr → σ → (σ → Main E Fields Addr α) → Main E Fields Addr α}
    (hb : Does' φ P body (onNode K visit)) {f rounds : Nat} (hr : 2 ^ f ≤ rounds) {q : Chans Fields Addr} (hq : Only P q) {n : Ptr} {s s' : σ} {h h' : Heap E}
    {k : σ → Main E Fields Addr α} (hs : Seen φ P h) (run : ((ifNotNil n s (walkP visit f n s)).lift K).run h = .ok (s', h'))
    (hk : Seen φ P h' → Does φ Q q (k s') h') : Does φ Q q (.go (numGen id id (f + 1) n) fun i => .range i body rounds s k) h := by
  obtain ⟨A, rfl, hh, hA, _, hv'⟩ := child_shape hφ hv hs run
  obtain ⟨m, hm⟩ := numGen_out (item := (id : Addr → Addr)) (f := f + 1) (by omega) hA
  have hlen := spots_lt hh
  refine does_go hs.holds hm fun t ht => ?_
  exact does_visits hb (rounds := rounds) (by simp at hlen ⊢; omega) (by simp [spots]) (hq.more ht _) hs hv' fun hs' => does_closed ht (hk hs')

/-- A loop over the channel of the target, which is not visited itself. -/
theorem does_desc (hφ : Reads φ K) {visit : Ptr → σ → Prog (ND w W) σ} (hv : Quiet φ K visit) {body : Addr → σ → (σ → Main E Fields Addr α) → Main E Fields Addr α}
    (hb : Does' φ P body (onNode K visit)) {f rounds : Nat} (hr : 2 ^ (f + 1) ≤ rounds) {q : Chans Fields Addr} (hq : Only P q) {n : Ptr} {s s' : σ} {h h' : Heap E}
    {k : σ → Main E Fields Addr α} (hs : Seen φ P h) (run : ((descP visit f n s).lift K).run h = .ok (s', h'))
    (hk : Seen φ P h' → Does φ Q q (k s') h') : Does φ Q q (descM K body (f + 2) rounds n s k) h := by
  unfold descP at run
  rw [lift_bind] at run
  obtain ⟨c, h0, r0, run1⟩ := run_two run
  clear run
  obtain ⟨rfl, a, rfl, hc⟩ := run_load r0
  have hP := hs.at hc
  rw [hφ c] at hP
  rw [lift_bind] at run1
  obtain ⟨s1, h1, r1, r2⟩ := run_two run1
  obtain ⟨L, l1, l2, l3, l4, l5⟩ := child_shape hφ hv hs r1
  obtain ⟨R, q1, q2, q3, _, q5⟩ := child_shape hφ hv l4 r2
  have hA : Pinned id id P (.node (a, c.d.leaf) L R : ATree Bool) := ⟨⟨_, hP, by simp [l1, q1]⟩, l3, q3⟩
  have hh : (BTree.node (a, c.d.leaf) L R).height ≤ f + 1 := by simp only [BTree.height]; omega
  obtain ⟨m, hm⟩ := numGen_out (item := (id : Addr → Addr)) (f := f + 2) (by omega) hA
  have hlen := spots_lt hh
  have e : (leaves id (.node (a, c.d.leaf) L R : ATree Bool)).map (fun ad => id ad.1) = (if c.d.leaf then [a] else []) ++ (spots L ++ spots R) := by
    simp only [spots, leaves, List.map_append, id]
    cases c.d.leaf <;> simp
  have hle : (spots L ++ spots R).length < rounds := by
    have : (spots L ++ spots R).length ≤ (spots (.node (a, c.d.leaf) L R : ATree Bool)).length := by
      simp only [spots, leaves, List.map_append, List.length_append]; omega
    omega
  have hall := visitAll_append l5 q5
  rw [e] at hm
  unfold descM
  refine does_go hs.holds hm fun t ht => ?_
  refine does_run (hq.more ht _) hs (touch_readOnly (Prog.ReadOnly.lift K (ReadOnly.load _)) _) r0 fun _ => ?_
  split
  · rename_i hl
    simp only [List.cons_append, List.nil_append]
    refine does_recv (P := P) (b := a) (l := spots L ++ spots R) (by simp) ?_
    have e2 : (q ++ t ++ [some (P, a :: (spots L ++ spots R))]).set (q ++ t).length (some (P, spots L ++ spots R)) = q ++ t ++ [some (P, spots L ++ spots R)] := by
      rw [List.set_append_right _ _ (Nat.le_refl _), Nat.sub_self]; rfl
    rw [e2]
    exact does_visits hb hle (by simp) (hq.more ht _) hs hall fun hs' => does_closed ht (hk hs')
  · rename_i hl
    simp only [List.nil_append]
    exact does_visits hb hle (by simp) (hq.more ht _) hs hall fun hs' => does_closed ht (hk hs')

theorem bodyM_does {visit : Ptr → σ → Prog (ND w W) σ} (hv : Quiet φ K visit) : Does' (α := α) φ P (bodyM K visit) (onNode K visit) :=
  fun hq hs hr hk => does_run hq hs (hv _ _ _) hr hk

end Walk

/-! ## UpdateDescendants -/

section Iptree
variable {V : Type} {P : Pin Fields} {h h' : Heap (IPD V)} {s s' : σ} {f rounds : Nat} {Q : σ → Heap (IPD V) → Prop}

theorem reads32 : Reads (ipFields (V := V)) k32 := fun _ => rfl
theorem reads64 : Reads (ipFields (V := V)) k64 := fun _ => rfl

theorem quiet_of {w : Nat} {W : Type} {K : Kind (ND w W) (IPD V)} (hφ : Reads ipFields K) {R : W → W → Prop} {visit : Ptr → σ → Prog (ND w W) σ}
    (hv : ∀ n s h, (visit n s).Touch (SameN R) h) : Quiet ipFields K visit := fun n s h =>
  touch_lift K (fun c c' q => by
    show ipFields _ = ipFields _
    rw [hφ c, hφ c', q.1, q.2.1, q.2.2.2.2.1]) (hv n s _)

theorem quiet4 (cb : σ → IPNet → V → (V × Bool) × σ) : Quiet ipFields k32 (visit4 cb) := quiet_of reads32 (visit4_touch cb)
theorem quietU (cb : σ → IPNet → V → (V × Bool) × σ) (key : ND 64 (HV V) → IPNet) : Quiet ipFields k64 (updateNode64P cb key) :=
  quiet_of reads64 (updateNode64P_touch cb key)
theorem quiet6 (cb : σ → IPNet → V → (V × Bool) × σ) (f : Nat) : Quiet ipFields k64 (visit6 cb f) := quiet_of reads64 (visit6_touch cb f)

theorem body6M_does (cb : σ → IPNet → V → (V × Bool) × σ) (hr : 2 ^ f ≤ rounds) :
    Does' (α := σ) ipFields P (body6M cb (f + 1) rounds) (onNode k64 (visit6 cb f)) := by
  intro Q a s h s' h' k q hq hs run hk
  unfold onNode visit6 at run
  rw [lift_bind] at run
  obtain ⟨c, h0, r0, run1⟩ := run_two run
  clear run
  have ⟨e0, _⟩ := run_load r0
  subst e0
  unfold body6M
  refine does_run hq hs (touch_readOnly (Prog.ReadOnly.lift k64 (ReadOnly.load _)) _) r0 fun _ => ?_
  split
  · rename_i p hp
    rw [hp] at run1
    exact does_walk reads64 (quietU cb _) (bodyM_does (quietU cb _)) hr hq hs run1 hk
  · rename_i v hp
    rw [hp] at run1
    exact bodyM_does (quietU cb _) hq hs run1 hk

theorem find_readOnly {w : Nat} {W : Type} [KeySize w] (K : Kind (ND w W) (IPD V)) (f : Nat) (n : Ptr) (key : BitVec w) (bits : Int) (h : Heap (IPD V)) :
    ((FindNodeP f n key bits : Prog (ND w W) Ptr).lift K).Touch (LooksSame ipFields) h :=
  touch_readOnly (Prog.ReadOnly.lift K (FindNodeP_readOnly _ _ _ _)) _

/-- The caller in one run, if the call, run with each body at the moment its node is sent, ends without panic. -/
theorem updM_does (cb : σ → IPNet → V → (V × Bool) × σ) (hr : 2 ^ (f + 1) ≤ rounds) (hk : h.Ok) {t : Ptr} {n : Option IPNet}
    (run : (UpdateDescendantsP f cb t n s).run h = .ok (s', h')) : Does ipFields (fun x h2 => x = s' ∧ h2 = h') [] (updM f rounds cb t n s) h := by
  have hr' : 2 ^ f ≤ rounds := Nat.le_trans (Nat.pow_le_pow_right (by omega) (by omega)) hr
  have hs := seen_self (φ := ipFields) hk
  have hq : Only (fun a => (h.mem a).map ipFields) ([] : Chans Fields Addr) := fun p l hp => by simp at hp
  revert hs hq
  generalize (fun a => (h.mem a).map ipFields) = P
  intro hs hq
  cases n with
  | none => cases run
  | some n =>
    simp only [UpdateDescendantsP] at run
    simp only [updM]
    cases e4 : v4Key n with
    | some kb =>
      obtain ⟨key, bits⟩ := kb
      simp only [e4] at run ⊢
      obtain ⟨r, h0, r0, run1⟩ := run_two run
      refine does_run hq hs (touch_readOnly (rootsP_readOnly t) _) r0 fun hs => ?_
      rw [on32, lift_bind] at run1
      obtain ⟨target, h1, r1, run2⟩ := run_two run1
      refine does_run hq hs (find_readOnly _ _ _ _ _ _) r1 fun hs => ?_
      split
      · rename_i e
        rw [if_pos e] at run2
        cases run2
        exact does_ret ⟨rfl, rfl⟩
      · rename_i e
        rw [if_neg e] at run2
        exact does_desc reads32 (quiet4 cb) (bodyM_does (quiet4 cb)) hr hq hs run2 fun _ => does_ret ⟨rfl, rfl⟩
    | none =>
      simp only [e4] at run ⊢
      cases e6 : v6Pair n with
      | none =>
        simp only [e6] at run ⊢
        cases run
        exact does_ret ⟨rfl, rfl⟩
      | some k =>
        simp only [e6] at run ⊢
        obtain ⟨r, h0, r0, run1⟩ := run_two run
        refine does_run hq hs (touch_readOnly (rootsP_readOnly t) _) r0 fun hs => ?_
        rw [on64, lift_bind] at run1
        obtain ⟨target, h1, r1, run2⟩ := run_two run1
        refine does_run hq hs (find_readOnly _ _ _ _ _ _) r1 fun hs => ?_
        split
        · rename_i e
          rw [if_pos e] at run2
          cases run2
          exact does_ret ⟨rfl, rfl⟩
        · rename_i e
          rw [if_neg e] at run2
          unfold target6P at run2
          rw [lift_bind] at run2
          obtain ⟨c, h2, r2, run3⟩ := run_two run2
          refine does_run hq hs (touch_readOnly (Prog.ReadOnly.lift k64 (ReadOnly.load _)) _) r2 fun hs => ?_
          split
          · rename_i p hp
            simp only [hp] at run3
            rw [lift_bind] at run3
            obtain ⟨sc, h3, r3, run4⟩ := run_two run3
            refine does_run hq hs (touch_readOnly (Prog.ReadOnly.lift k64 (ReadOnly.load _)) _) r3 fun hs => ?_
            have key : ∃ tg h4, ((if sc.d.key = k.lsKey ∧ (sc.d.bits : Int) = k.lsBits then pure p else FindNodeP f p k.lsKey k.lsBits).lift k64).run h3 = .ok (tg, h4) ∧
                ((if tg = none then pure s else descP (updateNode64P cb (key6s k.msKey)) f tg s).lift k64).run h4 = .ok (s', h') := by
              split at run4
              · rename_i q; rw [if_pos q]; exact ⟨p, h3, rfl, run4⟩
              · rename_i q; rw [if_neg q]
                rw [lift_bind] at run4
                exact run_two run4
            obtain ⟨tg, h4, r4, run5⟩ := key
            refine does_run hq hs ?_ r4 fun hs => ?_
            · split
              · trivial
              · exact find_readOnly _ _ _ _ _ _
            · split
              · rename_i e
                rw [if_pos e] at run5
                cases run5
                exact does_ret ⟨rfl, rfl⟩
              · rename_i e
                rw [if_neg e] at run5
                exact does_desc reads64 (quietU cb _) (bodyM_does (quietU cb _)) hr hq hs run5 fun _ => does_ret ⟨rfl, rfl⟩
          · rename_i v hp
            simp only [hp] at run3
            exact does_desc reads64 (quiet6 cb f) (body6M_does cb hr') hr hq hs run3 fun _ => does_ret ⟨rfl, rfl⟩

/-- If the call, run with each body at the moment its node is sent, ends without panic, so does every schedule of caller and
goroutines, with the same result and the same memory, and no goroutine is left. -/
theorem updM_ends (cb : σ → IPNet → V → (V × Bool) × σ) (hr : 2 ^ (f + 1) ≤ rounds) (hk : h.Ok) {t : Ptr} {n : Option IPNet}
    (run : (UpdateDescendantsP f cb t n s).run h = .ok (s', h')) : Ends ipFields (updM f rounds cb t n s) h fun x h2 => x = s' ∧ h2 = h' :=
  (updM_does cb hr hk run).ends

end Iptree

end Verif.Pipe
