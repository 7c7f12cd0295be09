import Verif.Heap.Obj
import Verif.Heap.Fleet

/-!
# Goroutines working on from the same trees

After a history, any number of threads start with the roots the client holds.  Each runs its own script: it derives trees from
the roots it has, starts trees, inserts in place into trees it started itself, forgets roots, and reads.
-/

namespace Verif.Heap
open Prog
variable {D O R K A : Type}

/-- A step of a script: a call as in histories, or a read with argument `k` on the `i`-th root. -/
inductive TOp (O K : Type) where
  | call (op : SOp O)
  | read (i : Nat) (k : K)

/-- A script as a program: the answers of the reads in order (`none` if there is no such root) and the roots held at the end. -/
def sessionP (I : OImpl D O R) (Rd : K → R → Prog D A) : List (TOp O K) → List R → Prog D (List (Option A) × List R)
  | [], rs => pure ([], rs)
  | .call op :: l, rs => stepP I rs op >>= fun rs' => sessionP I Rd l rs'
  | .read i k :: l, rs => match rs[i]? with
    | none => sessionP I Rd l rs >>= fun x => pure (none :: x.1, x.2)
    | some r => Rd k r >>= fun a => sessionP I Rd l rs >>= fun x => pure (some a :: x.1, x.2)

/-- The owner's record after the script. -/
def Book.after (b : Book O) : List (TOp O K) → Book O
  | [] => b
  | .call op :: l => (b.step op).after l
  | .read _ _ :: l => b.after l

/-- Scripts may do what histories may do; in place only into trees the thread has started itself (`n0` counts the trees
started before). -/
def Book.LegalT (ok iok : List O → O → Prop) (n0 : Nat) (b : Book O) : List (TOp O K) → Prop
  | [] => True
  | .call op :: l => (b.Legal2 ok iok op ∧ OwnInp n0 b op) ∧ (b.step op).LegalT ok iok n0 l
  | .read _ _ :: l => b.LegalT ok iok n0 l

/-- The answers a thread must get, going by its own record only. -/
def Book.Answers (P : K → List O → A → Prop) (b : Book O) : List (TOp O K) → List (Option A) → Prop
  | [], xs => xs = []
  | .call op :: l, xs => (b.step op).Answers P l xs
  | .read i k :: l, xs => ∃ x ys, xs = x :: ys ∧ b.Answers P l ys ∧
    match b.vs[i]? with
    | none => x = none
    | some v => ∃ a, x = some a ∧ P k v.2 a

theorem wp_strengthen {α : Type} {W : Nat → Prop} {p : Prog D α} {Q Q' : α → Heap D → Prop} {h : Heap D} (hp : wp W p Q h)
    (hq : ∀ x h', p.run h = .ok (x, h') → Q x h' → Q' x h') : wp W p Q' h := by
  induction p generalizing h with
  | ret x => exact hq x h rfl hp
  | stop e => exact hp.elim
  | read a k ih =>
    obtain ⟨c, h1, h2⟩ := hp
    exact ⟨c, h1, ih c h2 fun x h' hr => hq x h' (by simp only [Prog.run, h1]; exact hr)⟩
  | write a c k ih => exact ⟨hp.1, hp.2.1, ih hp.2.2 fun x h' hr => hq x h' hr⟩
  | alloc c k ih => exact ih _ hp fun x h' hr => hq x h' hr

theorem OInv.rebase {I : OImpl D O R} {m : Nat} {s : OStore D R} {b : Book O} (h : OInv I 0 0 m s b) : OInv I b.next s.heap.next m s b := by
  obtain ⟨T, _, hk, h1, h2, h3, h4⟩ := h
  refine ⟨T, ⟨Nat.le_refl _, Nat.le_refl _, fun t ht hn => ?_⟩, hk, h1, h2, h3, h4⟩
  have := (h3 t ht).2.1
  omega

theorem OInv.mono {I : OImpl D O R} {n0 base m m' : Nat} (hm : m ≤ m') {s : OStore D R} {b : Book O} (h : OInv I n0 base m s b) : OInv I n0 base m' s b := by
  obtain ⟨T, hg, hk, h1, h2, h3, h4⟩ := h
  exact ⟨T, hg, hk, h1, h2, fun t ht => by obtain ⟨a, b, c⟩ := h3 t ht; exact ⟨a, b, by omega⟩, h4⟩

theorem session_wp {I : OImpl D O R} {n n0 base m : Nat} (hI : I.Lawful n) (Rd : K → R → Prog D A) (P : K → List O → A → Prop)
    (hR : ∀ k h r l F, l.length ≤ n → I.Obj h r l F → wp (fun _ => False) (Rd k r) (fun x h' => h' = h ∧ P k l x) h)
    (sc : List (TOp O K)) (hm : m + sc.length ≤ n) {h : Heap D} {rs : List R} {b : Book O} (hi : OInv I n0 base m ⟨h, rs⟩ b)
    (hl : b.LegalT I.cowOk I.inpOk n0 sc) :
    wp (fun a => base ≤ a) (sessionP I Rd sc rs) (fun x h' => b.Answers P sc x.1 ∧ OInv I n0 base (m + sc.length) ⟨h', x.2⟩ (b.after sc)) h := by
  induction sc generalizing h rs b m with
  | nil => exact ⟨rfl, hi⟩
  | cons op sc ih =>
    simp only [List.length_cons] at hm
    cases op with
    | call op =>
      obtain ⟨s', e1, i1, w1⟩ := ostep_inv hI (by omega) hi op hl.1.1 hl.1.2
      simp only [sessionP, wp_bind]
      refine wp_strengthen w1 fun rs' h' hr _ => ?_
      rw [stepP_run I ⟨h, rs⟩ op, e1] at hr
      cases hr
      refine wp_conseq (ih (by omega) i1 hl.2) ?_
      rintro x h' ⟨x1, x2⟩
      refine ⟨x1, ?_⟩
      rw [List.length_cons, Nat.add_comm _ 1, ← Nat.add_assoc]; exact x2
    | read i k =>
      have hi' := hi
      obtain ⟨T, _, hk, h1, h2, h3, h4⟩ := hi
      have key : wp (fun a => base ≤ a) (sessionP I Rd sc rs) (fun x h' => b.Answers P sc x.1 ∧ OInv I n0 base (m + (sc.length + 1)) ⟨h', x.2⟩ (b.after sc)) h := by
        refine wp_conseq (ih (by omega) hi' hl) ?_
        rintro x h' ⟨x1, x2⟩
        exact ⟨x1, x2.mono (by omega)⟩
      cases hT : T[i]? with
      | none =>
        have e1 : rs[i]? = none := by simp only at h1; simp [h1, hT]
        have e2 : b.vs[i]? = none := by simp [h2, hT]
        simp only [sessionP, e1, wp_bind, wp_pure]
        refine wp_conseq key ?_
        rintro x h' ⟨x1, x2⟩
        exact ⟨⟨_, _, rfl, x1, by simp only [e2]⟩, x2⟩
      | some t =>
        have e1 : rs[i]? = some t.1.1 := by simp only at h1; simp [h1, hT]
        have e2 : b.vs[i]? = some t.2 := by simp [h2, hT]
        obtain ⟨a1, _, a5⟩ := h3 t (List.mem_of_getElem? hT)
        simp only [sessionP, e1, wp_bind, wp_pure]
        refine wp_mono (fun _ => False.elim) ?_ (hR k h t.1.1 t.2.2 t.1.2 (by omega) a1)
        rintro a _ ⟨rfl, ha⟩
        refine wp_conseq key ?_
        rintro x h' ⟨x1, x2⟩
        exact ⟨⟨_, _, rfl, x1, by simp only [e2]; exact ⟨a, rfl, ha⟩⟩, x2⟩

/-- What thread `t` is promised at any point of a schedule of threads running scripts from the roots of `s` (recorded in `b`): it has
not failed, it is not about to write a cell that existed at the start, it has ended if it had enough turns, and if it has
ended its answers and the trees it holds are those its own record (and no other thread's) calls for; the trees held at the
start still show (`Ob`) what they showed. -/
structure Promise {T : Type} [DecidableEq T] (s : OStore D R) (b : Book O) (script : T → List (TOp O K)) (prog : T → Prog D (List (Option A) × List R))
    (P : K → List O → A → Prop) (Ob : Heap D → R → List O → Prop) (e : Fleet D T fun _ => List (Option A) × List R) (sched : List T) (t : T) : Prop where
  safe : ∀ x, e.prog t ≠ .stop x
  norace : ∀ a, (e.prog t).writes = some a → s.heap.next ≤ a
  ends : (prog t).left s.heap ≤ sched.count t → ∃ x, e.prog t = .ret x
  result : ∀ xs rs, e.prog t = .ret (xs, rs) → b.Answers P (script t) xs ∧ rs.length = (b.after (script t)).vs.length ∧
    ∀ (i : Nat) r v, rs[i]? = some r → (b.after (script t)).vs[i]? = some v → Ob (e.view t) r v.2
  old : ∀ (i : Nat) r v, s.roots[i]? = some r → b.vs[i]? = some v → Ob (e.view t) r v.2

/-- After any legal history, any number of threads running legal scripts from the roots held, in any schedule. -/
theorem obj_fleet {I : OImpl D O R} {n : Nat} (hI : I.Lawful n) (ops : List (SOp O)) (hl : (Book.init : Book O).LegalAll2 I.cowOk I.inpOk ops)
    (Rd : K → R → Prog D A) (P : K → List O → A → Prop) (Ob : Heap D → R → List O → Prop)
    (hR : ∀ k h r l F, l.length ≤ n → I.Obj h r l F → wp (fun _ => False) (Rd k r) (fun x h' => h' = h ∧ P k l x) h)
    (hO : ∀ h r l F, l.length ≤ n → I.Obj h r l F → Ob h r l)
    {T : Type} [DecidableEq T] (script : T → List (TOp O K)) (hn0 : ops.length ≤ n) (hn : ∀ t, ops.length + (script t).length ≤ n)
    (hs : ∀ t, (Book.init.exec ops).LegalT I.cowOk I.inpOk (Book.init.exec ops).next (script t)) (sched : List T) :
    ∃ s, OStore.init.exec I ops = .ok s ∧ ∀ t, Promise s (Book.init.exec ops) script (fun t => sessionP I Rd (script t) s.roots) P Ob
      ((Fleet.start s.heap fun t => sessionP I Rd (script t) s.roots).exec sched) sched t := by
  obtain ⟨s, e, i1⟩ := oexec_inv hI (oinv_init I) ops (by omega) hl
  have i2 := i1.rebase
  refine ⟨s, e, fun t => ?_⟩
  have hw : ∀ t, wp (fun a => s.heap.next ≤ a) (sessionP I Rd (script t) s.roots) _ s.heap := fun t => session_wp hI Rd P hR (script t) (by have := hn t; omega) i2 (hs t)
  obtain ⟨f1, f2, f3, f4, f5, f6⟩ := fleet_result hw sched t
  refine ⟨f1, f2, f3, fun xs rs hx => ?_, fun i r v hr hv => ?_⟩
  · obtain ⟨_, g1, T, _, hk, h1, h2, h3, h4⟩ := f4 _ hx
    simp only at h1
    refine ⟨g1, by simp [h1, h2], fun i r v hr hv => ?_⟩
    rw [h1, List.getElem?_map] at hr
    rw [h2, List.getElem?_map] at hv
    cases hT : T[i]? with
    | none => simp [hT] at hr
    | some u =>
      simp only [hT, Option.map_some, Option.some.injEq] at hr hv
      subst hr hv
      obtain ⟨a1, _, a5⟩ := h3 u (List.mem_of_getElem? hT)
      exact hO _ _ _ _ (by have := hn t; omega) a1
  · obtain ⟨T, _, hk, h1, h2, h3, h4⟩ := i1
    rw [h1, List.getElem?_map] at hr
    rw [h2, List.getElem?_map] at hv
    cases hT : T[i]? with
    | none => simp [hT] at hr
    | some u =>
      simp only [hT, Option.map_some, Option.some.injEq] at hr hv
      subst hr hv
      obtain ⟨a1, _, a5⟩ := h3 u (List.mem_of_getElem? hT)
      exact hO _ _ _ _ (by omega) (hI.frame a1 f5 fun a ha => f6 a (hI.lt a1 ha))

end Verif.Heap
