import Verif.RB.Map
import Verif.RB.History

/-!
# insert iteration by iteration

The loop of `insert` without a bound, for comparisons of any kind.
-/

namespace Verif.RB
variable {K V : Type}

/-- The loop at the start of an iteration, after it, or after a nil dereference. -/
inductive InsSt (K V : Type) where
  | run (ctx : List (Frame K V)) (foc : RTree K V)
  | done (t : RTree K V)
  | panic

/-- One iteration.  strtree/node.go:91-168, 192-236. -/
def insStep [Inhabited V] (cmp : K → K → Int) (key : K) (value : V) (ctx : List (Frame K V)) (foc : RTree K V) : InsSt K V :=
  match fix ctx (visit key foc) with
  | some (ctx', .node d l r) =>
    if cmp d.key key = 0 then .done (plug (.node { d with value := value } l r) ctx')
    else if cmp d.key key < 0 then .run ({ d := d, dir := true, sib := l } :: ctx') r
    else .run ({ d := d, dir := false, sib := r } :: ctx') l
  | _ => .panic

/-- Many iterations. -/
def insSteps [Inhabited V] (cmp : K → K → Int) (key : K) (value : V) : Nat → InsSt K V → InsSt K V
  | 0, s => s
  | n + 1, .run ctx foc => insSteps cmp key value n (insStep cmp key value ctx foc)
  | _ + 1, s => s

/-- strtree/node.go:60-173 `insert`, 175-241 `inplaceInsert`: where the call is after `n` iterations. -/
def insertAfter [Inhabited V] (cmp : K → K → Int) (t : RTree K V) (key : K) (value : V) (n : Nat) : InsSt K V :=
  match t with
  | .nil => .done (.node { key := key, value := value, red := false } .nil .nil)
  | t =>
    match insSteps cmp key value n (.run [] t) with
    | .done t => .done (setRed false t)
    | s => s

section
variable [Inhabited V] {cmp : K → K → Int} {key : K} {value : V}

theorem insSteps_done (n : Nat) (t : RTree K V) : insSteps cmp key value n (.done t) = .done t := by cases n <;> rfl
theorem insSteps_panic (n : Nat) : insSteps cmp key value n (.panic : InsSt K V) = .panic := by cases n <;> rfl

theorem insSteps_add (m n : Nat) (s : InsSt K V) :
    insSteps cmp key value (m + n) s = insSteps cmp key value n (insSteps cmp key value m s) := by
  induction m generalizing s with
  | zero => simp [insSteps]
  | succ m ih =>
    rw [Nat.succ_add]
    cases s with
    | run ctx foc => simp only [insSteps]; exact ih _
    | done t => simp [insSteps_done]
    | panic => simp [insSteps_panic]

theorem insLoop_eq (fuel : Nat) (ctx : List (Frame K V)) (foc : RTree K V) :
    insLoop cmp key value fuel ctx foc =
      match insSteps cmp key value fuel (.run ctx foc) with
      | .done t => some t
      | _ => none := by
  induction fuel generalizing ctx foc with
  | zero => rfl
  | succ fuel ih =>
    simp only [insLoop, insSteps, insStep]
    cases fix ctx (visit key foc) with
    | none => simp [insSteps_panic]
    | some x =>
      obtain ⟨ctx', n⟩ := x
      cases n with
      | nil => simp [insSteps_panic]
      | node d l r =>
        simp only
        by_cases h0 : cmp d.key key = 0
        · simp [h0, insSteps_done]
        · by_cases h1 : cmp d.key key < 0
          · simp [h0, h1, ih]
          · simp [h0, h1, ih]

/-! ## The way down -/

/-- The frames are on the way to `key`. -/
def Dirs (cmp : K → K → Int) (key : K) (ctx : List (Frame K V)) : Prop :=
  ∀ f ∈ ctx, f.dir = decide (cmp f.d.key key < 0) ∧ cmp f.d.key key ≠ 0

theorem get_child {d : RD K V} {l r : RTree K V} (h : cmp d.key key ≠ 0) (b : Bool) (hb : b = decide (cmp d.key key < 0)) :
    get cmp (.node d l r) key = get cmp ((BTree.node d l r).child b) key := by
  subst hb
  by_cases h1 : cmp d.key key < 0 <;> simp [get, h, h1]

theorem get_mk2 {d : RD K V} {x y : RTree K V} {b : Bool} (h : cmp d.key key ≠ 0) (hb : b = decide (cmp d.key key < 0)) :
    get cmp (.mk2 d b x y) key = get cmp x key := by
  cases b
  · rw [BTree.mk2_false, get_child h false hb]; rfl
  · rw [BTree.mk2_true, get_child h true hb]; rfl

theorem get_mk2_not {d : RD K V} {x y : RTree K V} {b : Bool} (h : cmp d.key key ≠ 0) (hb : (!b) = decide (cmp d.key key < 0)) :
    get cmp (.mk2 d b x y) key = get cmp y key := by
  cases b
  · rw [BTree.mk2_false, get_child h true hb]; rfl
  · rw [BTree.mk2_true, get_child h false hb]; rfl

theorem get_plug {ctx : List (Frame K V)} (h : Dirs cmp key ctx) (t : RTree K V) :
    get cmp (plug t ctx) key = get cmp t key := by
  induction ctx generalizing t with
  | nil => rfl
  | cons f ctx ih =>
    have hf := h f (by simp)
    rw [plug, ih (fun g hg => h g (by simp [hg])), get_mk2 hf.2 hf.1]

theorem get_setRed (b : Bool) (t : RTree K V) : get cmp (setRed b t) key = get cmp t key := by
  cases t <;> rfl

theorem get_visit {foc : RTree K V} (h : foc ≠ .nil) : get cmp (visit key foc) key = get cmp foc key := by
  cases foc with
  | nil => exact absurd rfl h
  | node d l r =>
    simp only [visit]
    split
    · simp only [get, RD.col, get_setRed]
    · rfl

/-- What the repair does: the same way down. -/
theorem fix_way {ctx ctx' : List (Frame K V)} {n n' : RTree K V} (h : fix ctx n = some (ctx', n')) (hd : Dirs cmp key ctx) :
    Dirs cmp key ctx' ∧ ((∀ d l r, n = .node d l r → cmp d.key key ≠ 0 → get cmp n' key = get cmp n key)) ∧
    (∀ d' l' r', n' = .node d' l' r' → ∃ d l r, n = .node d l r ∧ d.key = d'.key ∧ d.value = d'.value) := by
  unfold fix at h
  split at h
  · split at h
    · rename_i P G rest nd nl nr _
      have hP := hd P (by simp)
      have hG := hd G (by simp)
      have hr : Dirs cmp key rest := fun f hf => hd f (by simp [hf])
      split at h
      · simp only [Option.some.injEq, Prod.mk.injEq] at h
        obtain ⟨rfl, rfl⟩ := h
        refine ⟨?_, fun d l r e _ => rfl, fun d' l' r' e => ⟨_, _, _, rfl, by cases e; rfl, by cases e; rfl⟩⟩
        intro f hf
        simp only [List.mem_cons] at hf
        rcases hf with rfl | hf
        · exact hP
        · exact hr f hf
      · rename_i hne
        simp only [Option.some.injEq, Prod.mk.injEq] at h
        obtain ⟨rfl, rfl⟩ := h
        refine ⟨hr, ?_, ?_⟩
        · intro d l r e hne0
          cases e
          have hPd : (!G.dir) = decide (cmp P.d.key key < 0) := by
            rw [← hP.1]; cases hp : P.dir <;> cases hg : G.dir <;> simp_all
          by_cases hx : G.dir = decide (cmp nd.key key < 0)
          · rw [get_mk2 (by exact hne0) (by exact hx), get_mk2_not (by exact hP.2) (by exact hPd), get_child hne0 _ hx]
          · have hx' : (!G.dir) = decide (cmp nd.key key < 0) := by
              cases hg : G.dir <;> cases hq : decide (cmp nd.key key < 0) <;> simp_all
            rw [get_mk2_not (by exact hne0) (by exact hx'), get_mk2 (by exact hG.2) (by exact hG.1), get_child hne0 _ hx']
        · intro d' l' r' e
          refine ⟨nd, nl, nr, rfl, ?_⟩
          cases hg : G.dir <;> rw [hg] at e <;> cases e <;> exact ⟨rfl, rfl⟩
    · cases h
  · simp only [Option.some.injEq, Prod.mk.injEq] at h
    obtain ⟨rfl, rfl⟩ := h
    exact ⟨hd, fun _ _ _ _ _ => rfl, fun d' l' r' e => ⟨d', l', r', e, rfl, rfl⟩⟩

theorem visit_node (key : K) (foc : RTree K V) : ∃ d l r, visit key foc = .node d l r ∧
    (foc = .nil → d.key = key) ∧ ∀ d0 l0 r0, foc = .node d0 l0 r0 → d.key = d0.key := by
  cases foc with
  | nil => exact ⟨_, _, _, rfl, fun _ => rfl, fun _ _ _ e => by cases e⟩
  | node d l r =>
    simp only [visit]
    split
    · exact ⟨_, _, _, rfl, (nomatch ·), fun _ _ _ e => by cases e; rfl⟩
    · exact ⟨_, _, _, rfl, (nomatch ·), fun _ _ _ e => by cases e; rfl⟩

/-- An iteration that goes on: a frame is added, the way stays the way to `key`. -/
theorem insStep_run {ctx ctx' : List (Frame K V)} {foc foc' : RTree K V} (h : insStep cmp key value ctx foc = .run ctx' foc')
    (hd : Dirs cmp key ctx) : ctx' ≠ [] ∧ Dirs cmp key ctx' ∧ (foc ≠ .nil → get cmp foc' key = get cmp foc key) := by
  obtain ⟨d0, l0, r0, hv, h1, h2⟩ := visit_node key foc
  simp only [insStep] at h
  cases hf : fix ctx (visit key foc) with
  | none => simp [hf] at h
  | some x =>
    obtain ⟨c, n⟩ := x
    obtain ⟨w1, w2, w3⟩ := fix_way (key := key) (cmp := cmp) hf hd
    cases n with
    | nil => simp [hf] at h
    | node d l r =>
      simp only [hf] at h
      by_cases h0 : cmp d.key key = 0
      · simp [h0] at h
      · obtain ⟨d1, l1, r1, e1, e2, _⟩ := w3 d l r rfl
        have hg : foc ≠ .nil → get cmp (.node d l r) key = get cmp foc key := fun hn => by
          rw [w2 d1 l1 r1 e1 (by rw [e2]; exact h0), get_visit hn]
        by_cases hlt : cmp d.key key < 0
        · simp only [h0, hlt, if_true, if_false, InsSt.run.injEq] at h
          obtain ⟨rfl, rfl⟩ := h
          refine ⟨by simp, ?_, fun hn => ?_⟩
          · intro f hf; simp at hf; rcases hf with rfl | hf
            · exact ⟨by simp [hlt], h0⟩
            · exact w1 f hf
          · rw [← hg hn, get_child h0 true (by simp [hlt])]; rfl
        · simp only [h0, hlt, if_false, InsSt.run.injEq] at h
          obtain ⟨rfl, rfl⟩ := h
          refine ⟨by simp, ?_, fun hn => ?_⟩
          · intro f hf; simp at hf; rcases hf with rfl | hf
            · exact ⟨by simp [hlt], h0⟩
            · exact w1 f hf
          · rw [← hg hn, get_child h0 false (by simp [hlt])]; rfl

/-- An iteration that ends the loop: at an equal key, which then has the value. -/
theorem insStep_done {ctx : List (Frame K V)} {foc t : RTree K V} (h : insStep cmp key value ctx foc = .done t)
    (hd : Dirs cmp key ctx) : get cmp t key = some value ∧ (foc = .nil → cmp key key = 0) ∧ (foc ≠ .nil → (get cmp foc key).isSome = true) := by
  obtain ⟨d0, l0, r0, hv, h1, h2⟩ := visit_node key foc
  simp only [insStep] at h
  cases hf : fix ctx (visit key foc) with
  | none => simp [hf] at h
  | some x =>
    obtain ⟨c, n⟩ := x
    obtain ⟨w1, w2, w3⟩ := fix_way (key := key) (cmp := cmp) hf hd
    cases n with
    | nil => simp [hf] at h
    | node d l r =>
      simp only [hf] at h
      obtain ⟨d1, l1, r1, e1, e2, _⟩ := w3 d l r rfl
      rw [hv] at e1
      cases e1
      by_cases h0 : cmp d.key key = 0
      · simp only [h0, if_true, InsSt.done.injEq] at h
        subst h
        refine ⟨?_, ?_, ?_⟩
        · rw [get_plug w1]; simp [get, h0]
        · intro hn
          rw [← e2, h1 hn] at h0; exact h0
        · intro hn
          cases foc with
          | nil => exact absurd rfl hn
          | node a b c => simp [get, ← h2 a b c rfl, e2, h0]
      · simp only [h0, if_false] at h
        split at h <;> cases h

theorem insStep_panic {ctx : List (Frame K V)} {foc : RTree K V} :
    insStep cmp key value ctx foc = .panic ↔ fix ctx (visit key foc) = none := by
  obtain ⟨d0, l0, r0, hv, _, _⟩ := visit_node key foc
  simp only [insStep]
  cases hf : fix ctx (visit key foc) with
  | none => simp
  | some x =>
    obtain ⟨c, n⟩ := x
    cases n with
    | nil =>
      exfalso
      rw [hv] at hf
      unfold fix at hf
      split at hf
      · split at hf
        · rename_i P G rest nd nl nr _ _
          split at hf
          · simp at hf
          · simp at hf; have := hf.2; cases hg : G.dir <;> simp [hg, BTree.mk2] at this
        · cases hf
      · simp at hf
    | node d l r => simp only [reduceCtorEq, iff_false]; split <;> (try split) <;> simp

/-- What the iterations do on the way to `key`. -/
theorem insSteps_way {n : Nat} {ctx : List (Frame K V)} {foc : RTree K V} (hd : Dirs cmp key ctx) :
    (∀ t, insSteps cmp key value n (.run ctx foc) = .done t → get cmp t key = some value) ∧
    (∀ ctx' foc', insSteps cmp key value n (.run ctx foc) = .run ctx' foc' → Dirs cmp key ctx' ∧
      ((get cmp foc key).isSome = true → (get cmp foc' key).isSome = true)) := by
  induction n generalizing ctx foc with
  | zero => exact ⟨fun t h => (nomatch h), fun c f h => by cases h; exact ⟨hd, id⟩⟩
  | succ n ih =>
    simp only [insSteps]
    cases hs : insStep cmp key value ctx foc with
    | run c f =>
      obtain ⟨h1, h2, h3⟩ := insStep_run hs hd
      refine ⟨fun t h => (ih h2).1 t h, fun c' f' h => ⟨((ih h2).2 c' f' h).1, fun hg => ((ih h2).2 c' f' h).2 ?_⟩⟩
      rw [h3 (by rintro rfl; simp [get] at hg)]; exact hg
    | done t =>
      simp only [insSteps_done]
      exact ⟨fun t' h => by cases h; exact (insStep_done hs hd).1, fun c f h => (nomatch h)⟩
    | panic => simp [insSteps_panic]

/-! ## After the leaf

A new node whose key is not equal to itself. -/

/-- Nodes above and beside the current one. -/
def around : List (Frame K V) → Nat
  | [] => 0
  | f :: ctx => 1 + f.sib.size + around ctx

/-- Nodes in the tree under construction. -/
def tot (ctx : List (Frame K V)) (foc : RTree K V) : Nat := around ctx + foc.size

/-- At a nil child. -/
structure LostA (cmp : K → K → Int) (key : K) (ctx : List (Frame K V)) : Prop where
  dirs : Dirs cmp key ctx
  par : parentRed ctx = true → 2 ≤ ctx.length
  ne : ctx ≠ []

/-- At a red node just above a nil child. -/
structure LostB (cmp : K → K → Int) (key : K) (ctx : List (Frame K V)) (foc : RTree K V) : Prop where
  dirs : Dirs cmp key ctx
  black : parentRed ctx = false
  ne : ctx ≠ []
  foc : ∃ d l r, foc = .node d l r ∧ cmp d.key key ≠ 0 ∧ (BTree.node d l r).child (decide (cmp d.key key < 0)) = .nil

/-- The key has been added and not found. -/
def Lost (cmp : K → K → Int) (key : K) (ctx : List (Frame K V)) (foc : RTree K V) : Prop :=
  foc = .nil ∧ LostA cmp key ctx ∨ LostB cmp key ctx foc

theorem size_mk2 {D : Type} (d : D) (b : Bool) (x y : BTree D) : (BTree.mk2 d b x y).size = x.size + y.size + 1 := by
  cases b <;> simp [BTree.mk2]; omega

theorem size_plug (ctx : List (Frame K V)) (foc : RTree K V) : (plug foc ctx).size = tot ctx foc := by
  unfold tot
  induction ctx generalizing foc with
  | nil => simp [plug, around]
  | cons f ctx ih => rw [plug, ih, size_mk2, around]; omega

theorem size_child {D : Type} (d : D) (l r : BTree D) (b : Bool) :
    ((BTree.node d l r).child (!b)).size + ((BTree.node d l r).child b).size + 1 = (BTree.node d l r).size := by
  cases b <;> simp; omega

theorem child_mk2 {D : Type} (d : D) (b : Bool) (x y : BTree D) : (BTree.mk2 d b x y).child b = x ∧ (BTree.mk2 d b x y).child (!b) = y := by
  cases b <;> exact ⟨rfl, rfl⟩

/-- Take the iteration apart: where it goes. -/
theorem insStep_of_fix {ctx ctx' : List (Frame K V)} {foc : RTree K V} {d : RD K V} {l r : RTree K V}
    (h : fix ctx (visit key foc) = some (ctx', .node d l r)) (h0 : cmp d.key key ≠ 0) :
    insStep cmp key value ctx foc = .run ({ d := d, dir := decide (cmp d.key key < 0), sib := (BTree.node d l r).child (!decide (cmp d.key key < 0)) } :: ctx')
      ((BTree.node d l r).child (decide (cmp d.key key < 0))) := by
  by_cases hlt : cmp d.key key < 0 <;> simp [insStep, h, h0, hlt]

theorem lost_step (hk : cmp key key ≠ 0) {ctx : List (Frame K V)} {foc : RTree K V} (h : Lost cmp key ctx foc) :
    ∃ ctx' foc', insStep cmp key value ctx foc = .run ctx' foc' ∧ Lost cmp key ctx' foc' ∧
      (foc = .nil → tot ctx' foc' = tot ctx foc + 1) ∧ (foc ≠ .nil → foc' = .nil ∧ tot ctx' foc' = tot ctx foc) := by
  rcases h with ⟨rfl, hA⟩ | hB
  · have hv : visit key (.nil : RTree K V) = .node { key := key, value := default, red := true } .nil .nil := rfl
    by_cases hp : parentRed ctx = true
    · obtain ⟨P, G, rest, rfl⟩ : ∃ P G rest, ctx = P :: G :: rest := by
        have := hA.par hp
        match ctx, this with
        | P :: G :: rest, _ => exact ⟨P, G, rest, rfl⟩
      have hP := hA.dirs P (by simp)
      have hG := hA.dirs G (by simp)
      have hr : Dirs cmp key rest := fun f hf => hA.dirs f (by simp [hf])
      by_cases hdir : P.dir = G.dir
      · have hf : fix (P :: G :: rest) (visit key .nil) =
            some ({ d := P.d.col false, dir := P.dir, sib := .mk2 (G.d.col true) G.dir P.sib G.sib } :: rest,
              .node { key := key, value := default, red := true } .nil .nil) := by
          simp [hv, fix, hp, hdir]
        refine ⟨_, _, insStep_of_fix hf hk, .inl ⟨by cases decide (cmp key key < 0) <;> rfl, ?_, fun _ => by simp, by simp⟩, fun _ => ?_, fun h => absurd rfl h⟩
        · intro f hf
          simp only [List.mem_cons] at hf
          rcases hf with rfl | rfl | hf
          · exact ⟨rfl, hk⟩
          · exact hP
          · exact hr f hf
        · simp only [tot, around, size_mk2]
          cases decide (cmp key key < 0) <;> simp <;> omega
      · have hf : fix (P :: G :: rest) (visit key .nil) =
            some (rest, .mk2 { key := key, value := default, red := false } G.dir
              (.mk2 (P.d.col true) G.dir P.sib .nil) (.mk2 (G.d.col true) G.dir .nil G.sib)) := by
          simp [hv, fix, hp, hdir, RD.col]
          cases G.dir <;> rfl
        have hPd : (!G.dir) = decide (cmp P.d.key key < 0) := by
          rw [← hP.1]; cases hp : P.dir <;> cases hg : G.dir <;> simp_all
        obtain ⟨l, r, hn⟩ : ∃ l r, BTree.mk2 ({ key := key, value := default, red := false } : RD K V) G.dir
              (.mk2 (P.d.col true) G.dir P.sib .nil) (.mk2 (G.d.col true) G.dir .nil G.sib) = .node { key := key, value := default, red := false } l r := by
          cases G.dir <;> exact ⟨_, _, rfl⟩
        rw [hn] at hf
        have hc : ∀ b, (BTree.node ({ key := key, value := default, red := false } : RD K V) l r).child b =
            if b = G.dir then .mk2 (P.d.col true) G.dir P.sib .nil else .mk2 (G.d.col true) G.dir .nil G.sib := by
          intro b
          rw [← hn]
          cases b <;> cases G.dir <;> rfl
        have hcP : ∀ l0 r0, (BTree.mk2 (P.d.col true) G.dir P.sib .nil : RTree K V) = .node (P.d.col true) l0 r0 →
            (BTree.node (P.d.col true) l0 r0).child (decide (cmp P.d.key key < 0)) = .nil := by
          intro l0 r0 e; rw [← e, ← hPd]; exact (child_mk2 _ _ _ _).2
        have hcG : ∀ l0 r0, (BTree.mk2 (G.d.col true) G.dir .nil G.sib : RTree K V) = .node (G.d.col true) l0 r0 →
            (BTree.node (G.d.col true) l0 r0).child (decide (cmp G.d.key key < 0)) = .nil := by
          intro l0 r0 e; rw [← e, ← hG.1]; exact (child_mk2 _ _ _ _).1
        refine ⟨_, _, insStep_of_fix hf hk, .inr ⟨?_, rfl, by simp, ?_⟩, fun _ => ?_, fun h => absurd rfl h⟩
        · intro f hf
          simp only [List.mem_cons] at hf
          rcases hf with rfl | hf
          · exact ⟨rfl, hk⟩
          · exact hr f hf
        · rw [hc]
          by_cases hb : decide (cmp key key < 0) = G.dir
          · rw [if_pos hb]
            obtain ⟨l0, r0, e⟩ : ∃ l0 r0, (BTree.mk2 (P.d.col true) G.dir P.sib .nil : RTree K V) = .node (P.d.col true) l0 r0 := by
              cases G.dir <;> exact ⟨_, _, rfl⟩
            exact ⟨_, l0, r0, e, hP.2, hcP l0 r0 e⟩
          · rw [if_neg hb]
            obtain ⟨l0, r0, e⟩ : ∃ l0 r0, (BTree.mk2 (G.d.col true) G.dir .nil G.sib : RTree K V) = .node (G.d.col true) l0 r0 := by
              cases G.dir <;> exact ⟨_, _, rfl⟩
            exact ⟨_, l0, r0, e, hG.2, hcG l0 r0 e⟩
        · have h1 := size_child ({ key := key, value := default, red := false } : RD K V) l r (decide (cmp key key < 0))
          rw [← hn] at h1
          simp only [size_mk2, BTree.size_nil] at h1
          rw [hn] at h1
          simp only [tot, around, BTree.size_nil]
          omega
    · have hf : fix ctx (visit key .nil) = some (ctx, .node { key := key, value := default, red := true } .nil .nil) := by
        rw [hv]; exact fix_noop (by simp [hp])
      refine ⟨_, _, insStep_of_fix hf hk, .inl ⟨by cases decide (cmp key key < 0) <;> rfl, ?_, fun _ => ?_, by simp⟩, fun _ => ?_, fun h => absurd rfl h⟩
      · intro f hf
        simp only [List.mem_cons] at hf
        rcases hf with rfl | hf
        · exact ⟨rfl, hk⟩
        · exact hA.dirs f hf
      · have := hA.ne
        cases ctx with
        | nil => exact absurd rfl this
        | cons => simp
      · simp only [tot, around]
        cases decide (cmp key key < 0) <;> simp <;> omega
  · obtain ⟨d, l, r, rfl, h0, hc⟩ := hB.foc
    have hv : visit key (.node d l r) = .node d l r := by
      simp only [visit]
      rw [if_neg]
      intro hh
      cases hq : decide (cmp d.key key < 0) <;> rw [hq] at hc <;> simp at hc <;> subst hc <;> simp at hh
    have hf : fix ctx (visit key (.node d l r)) = some (ctx, .node d l r) := by
      rw [hv]; exact fix_noop (by simp [hB.black])
    refine ⟨_, _, insStep_of_fix hf h0, .inl ⟨hc, ?_, fun _ => ?_, by simp⟩, fun h => (nomatch h), fun _ => ⟨hc, ?_⟩⟩
    · intro f hf
      simp only [List.mem_cons] at hf
      rcases hf with rfl | hf
      · exact ⟨rfl, h0⟩
      · exact hB.dirs f hf
    · have := hB.ne
      cases ctx with
      | nil => exact absurd rfl this
      | cons => simp
    · have h1 := size_child d l r (decide (cmp d.key key < 0))
      simp only [tot, around]
      omega

theorem lost_forever (hk : cmp key key ≠ 0) (n : Nat) {ctx : List (Frame K V)} {foc : RTree K V} (h : Lost cmp key ctx foc) :
    ∃ ctx' foc', insSteps cmp key value n (.run ctx foc) = .run ctx' foc' ∧ Lost cmp key ctx' foc' := by
  induction n generalizing ctx foc with
  | zero => exact ⟨ctx, foc, rfl, h⟩
  | succ n ih =>
    obtain ⟨c, f, h1, h2, _, _⟩ := lost_step (value := value) hk h
    simp only [insSteps, h1]
    exact ih h2

theorem lost_grows (hk : cmp key key ≠ 0) (n : Nat) {ctx : List (Frame K V)} {foc : RTree K V} (h : Lost cmp key ctx foc) :
    ∃ ctx' foc', insSteps cmp key value (2 * n) (.run ctx foc) = .run ctx' foc' ∧ n ≤ tot ctx' foc' := by
  suffices ∃ ctx' foc', insSteps cmp key value (2 * n) (.run ctx foc) = .run ctx' foc' ∧ n + tot ctx foc ≤ tot ctx' foc' by
    obtain ⟨c, f, h1, h2⟩ := this; exact ⟨c, f, h1, by omega⟩
  induction n generalizing ctx foc with
  | zero => exact ⟨ctx, foc, rfl, by omega⟩
  | succ n ih =>
    obtain ⟨c, f, h1, h2, h3, h4⟩ := lost_step (value := value) hk h
    obtain ⟨c', f', h1', h2', h3', h4'⟩ := lost_step (value := value) hk h2
    obtain ⟨c2, f2, e1, e2⟩ := ih h2'
    refine ⟨c2, f2, ?_, ?_⟩
    · rw [show 2 * (n + 1) = 2 * n + 1 + 1 by omega]
      simp only [insSteps, h1, h1', e1]
    · by_cases hn : foc = .nil
      · have := h3 hn
        by_cases hf : f = .nil
        · have := h3' hf; omega
        · have := (h4' hf).2; omega
      · obtain ⟨hf, h5⟩ := h4 hn
        have := h3' hf; omega

/-! ## Before the leaf

The iterations before the leaf compare only stored keys with the new one, so they go as they would go with a
comparison for which the new key is equal to itself: keys become `some`, the new key becomes `none`. -/

/-- Change the key of a node. -/
def RD.mapK {K' : Type} (g : K → K') (d : RD K V) : RD K' V := ⟨g d.key, d.value, d.red⟩
/-- Change all keys. -/
def mapKT {K' : Type} (g : K → K') (t : RTree K V) : RTree K' V := t.map (RD.mapK g)
/-- Change the keys of a frame. -/
def Frame.mapK {K' : Type} (g : K → K') (F : Frame K V) : Frame K' V := ⟨F.d.mapK g, F.dir, mapKT g F.sib, F.tgt⟩

section
omit [Inhabited V]
variable {K' : Type} (g : K → K')
@[simp] theorem mapK_key (d : RD K V) : (d.mapK g).key = g d.key := rfl
@[simp] theorem mapK_value (d : RD K V) : (d.mapK g).value = d.value := rfl
@[simp] theorem mapK_red (d : RD K V) : (d.mapK g).red = d.red := rfl
@[simp] theorem mapK_col (d : RD K V) (c : Bool) : (d.col c).mapK g = (d.mapK g).col c := rfl
@[simp] theorem mapKT_nil : mapKT g (.nil : RTree K V) = .nil := rfl
@[simp] theorem mapKT_node (d : RD K V) (l r : RTree K V) : mapKT g (.node d l r) = .node (d.mapK g) (mapKT g l) (mapKT g r) := rfl
@[simp] theorem mapKT_mk2 (d : RD K V) (b : Bool) (x y : RTree K V) : mapKT g (.mk2 d b x y) = .mk2 (d.mapK g) b (mapKT g x) (mapKT g y) :=
  BTree.map_mk2 _ _ _ _ _
@[simp] theorem mapKT_child (t : RTree K V) (b : Bool) : (mapKT g t).child b = mapKT g (t.child b) := by
  cases t <;> cases b <;> rfl
@[simp] theorem height_mapKT (t : RTree K V) : (mapKT g t).height = t.height := BTree.height_map _ _
@[simp] theorem isRed_mapKT (t : RTree K V) : isRed (mapKT g t) = isRed t := by cases t <;> rfl
@[simp] theorem setRed_mapKT (c : Bool) (t : RTree K V) : setRed c (mapKT g t) = mapKT g (setRed c t) := by cases t <;> rfl
@[simp] theorem Frame.mapK_d (F : Frame K V) : (F.mapK g).d = F.d.mapK g := rfl
@[simp] theorem Frame.mapK_dir (F : Frame K V) : (F.mapK g).dir = F.dir := rfl
@[simp] theorem Frame.mapK_sib (F : Frame K V) : (F.mapK g).sib = mapKT g F.sib := rfl

theorem plug_mapK (t : RTree K V) (ctx : List (Frame K V)) : plug (mapKT g t) (ctx.map (Frame.mapK g)) = mapKT g (plug t ctx) := by
  induction ctx generalizing t with
  | nil => rfl
  | cons F ctx ih => simp only [List.map_cons, plug, ← ih, mapKT_mk2, Frame.mapK_d, Frame.mapK_dir, Frame.mapK_sib]

@[simp] theorem parentRed_mapK (ctx : List (Frame K V)) : parentRed (ctx.map (Frame.mapK g)) = parentRed ctx := by
  cases ctx <;> rfl

theorem fix_mapK (ctx : List (Frame K V)) (n : RTree K V) :
    fix (ctx.map (Frame.mapK g)) (mapKT g n) = (fix ctx n).map fun x => (x.1.map (Frame.mapK g), mapKT g x.2) := by
  unfold fix
  simp only [isRed_mapKT, parentRed_mapK]
  split
  · cases ctx with
    | nil => simp
    | cons P ctx =>
      cases ctx with
      | nil => simp
      | cons G rest =>
        cases n with
        | nil => simp
        | node nd nl nr =>
          simp only [List.map_cons, mapKT_node, Frame.mapK_dir]
          by_cases h : P.dir = G.dir
          · simp only [h, if_true]; simp [Frame.mapK, h]
          · simp only [h, if_false, Option.map_some, mapKT_mk2, mapK_col, Frame.mapK_d, Frame.mapK_sib, ← mapKT_node, mapKT_child]
  · rfl

theorem RBal_mapK {t : RTree K V} {n : Nat} : RBal (mapKT g t) n ↔ RBal t n := by
  induction t generalizing n with
  | nil => rfl
  | node d l r ihl ihr => simp [RBal, ihl, ihr]
end

theorem visit_mapK {K' : Type} (g : K → K') (k' : K') {t : RTree K V} (h : t ≠ .nil) : visit k' (mapKT g t) = mapKT g (visit key t) := by
  cases t with
  | nil => exact absurd rfl h
  | node d l r =>
    simp only [visit, mapKT_node, isRed_mapKT]
    split <;> simp

/-- The comparison that finds the new key equal to itself. -/
def tagCmp (cmp : K → K → Int) (key : K) : Option K → Option K → Int
  | some a, _ => cmp a key
  | none, _ => 0

/-- Change the keys of a state. -/
def InsSt.mapK {K' : Type} (g : K → K') : InsSt K V → InsSt K' V
  | .run ctx foc => .run (ctx.map (Frame.mapK g)) (mapKT g foc)
  | .done t => .done (mapKT g t)
  | .panic => .panic

theorem insStep_tag {ctx : List (Frame K V)} {foc : RTree K V} (h : foc ≠ .nil) :
    insStep (tagCmp cmp key) none value (ctx.map (Frame.mapK some)) (mapKT some foc) = (insStep cmp key value ctx foc).mapK some := by
  simp only [insStep, visit_mapK (key := key) some none h, fix_mapK]
  cases fix ctx (visit key foc) with
  | none => rfl
  | some x =>
    obtain ⟨c, n⟩ := x
    cases n with
    | nil => rfl
    | node d l r =>
      simp only [Option.map_some, mapKT_node, mapK_key, tagCmp]
      by_cases h0 : cmp d.key key = 0
      · have := plug_mapK some (.node { d with value := value } l r) c
        simp only [h0, if_true, InsSt.mapK, ← this]; rfl
      · by_cases hlt : cmp d.key key < 0
        · simp only [h0, hlt, if_true, if_false]; rfl
        · simp only [h0, hlt, if_false]; rfl

/-- If the tagged run ends, the real one ends in the same tree or comes to a leaf, from where it could go on. -/
theorem insSteps_tag {fuel : Nat} {ctx : List (Frame K V)} {foc : RTree K V} {t' : RTree (Option K) V} (hn : foc ≠ .nil) (hd : Dirs cmp key ctx)
    (h : insSteps (tagCmp cmp key) none value fuel (.run (ctx.map (Frame.mapK some)) (mapKT some foc)) = .done t') :
    ((get cmp foc key).isSome = true ∧ ∃ t, insSteps cmp key value fuel (.run ctx foc) = .done t ∧ mapKT some t = t') ∨
    (get cmp foc key = none ∧ ∃ n ctx', n < fuel ∧ insSteps cmp key value n (.run ctx foc) = .run ctx' .nil ∧ LostA cmp key ctx') := by
  induction fuel generalizing ctx foc with
  | zero => cases h
  | succ fuel ih =>
    simp only [insSteps, insStep_tag hn] at h ⊢
    cases hs : insStep cmp key value ctx foc with
    | run c f =>
      rw [hs] at h
      obtain ⟨h1, h2, h3⟩ := insStep_run hs hd
      by_cases hf : f = .nil
      · subst hf
        refine .inr ⟨by rw [← h3 hn]; rfl, 1, c, ?_, by simp [insSteps, hs], h2, ?_, h1⟩
        · cases fuel with
          | zero => cases h
          | succ => omega
        · intro hp
          cases fuel with
          | zero => cases h
          | succ fuel =>
            match c, h1 with
            | [P], _ =>
              simp only [InsSt.mapK, insSteps] at h
              have : insStep (tagCmp cmp key) none value ([P].map (Frame.mapK some)) (mapKT some .nil) = .panic :=
                insStep_panic.2 (by
                  have : (P.mapK some).d.red = true := hp
                  simp [visit, fix, parentRed] at this ⊢
                  exact this)
              rw [this, insSteps_panic] at h
              cases h
            | _ :: _ :: _, _ => simp
      · rcases ih hf h2 h with ⟨e0, t, e1, e2⟩ | ⟨e0, n, c', e1, e2, e3⟩
        · exact .inl ⟨by rw [← h3 hn]; exact e0, t, e1, e2⟩
        · exact .inr ⟨by rw [← h3 hn]; exact e0, n + 1, c', by omega, by simp only [insSteps, hs, e2], e3⟩
    | done t =>
      rw [hs] at h
      simp only [InsSt.mapK, insSteps_done, InsSt.done.injEq] at h
      exact .inl ⟨(insStep_done hs hd).2.2 hn, t, by rw [insSteps_done], h⟩
    | panic =>
      rw [hs] at h
      simp [InsSt.mapK, insSteps_panic] at h

end
end Verif.RB
