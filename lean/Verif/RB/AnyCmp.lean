import Verif.RB.Steps

/-! # insert and del with a comparison of any kind -/

namespace Verif.RB
variable {K V : Type} {cmp : K → K → Int} {key : K}

/-! ## insert -/

section
variable [Inhabited V] {value : V}

omit [Inhabited V] in
/-- The rotation keeps what is before and after the current node. -/
theorem fix_split {ctx ctx' : List (Frame K V)} {nd d : RD K V} {nl nr l r : RTree K V}
    (h : fix ctx (.node nd nl nr) = some (ctx', .node d l r)) :
    leftL ctx' ++ enumerate l = leftL ctx ++ enumerate nl ∧ enumerate r ++ rightL ctx' = enumerate nr ++ rightL ctx ∧
    d.key = nd.key ∧ d.value = nd.value := by
  unfold fix at h
  split at h
  · split at h
    · rename_i P G rest nd' nl' nr' e _
      cases e
      split at h
      · rename_i hdir
        simp only [Option.some.injEq, Prod.mk.injEq, BTree.node.injEq] at h
        obtain ⟨rfl, rfl, rfl, rfl⟩ := h
        refine ⟨?_, ?_, rfl, rfl⟩
        · simp only [leftL, hdir, enumerate_mk2]; cases G.dir <;> simp
        · simp only [rightL, hdir, enumerate_mk2]; cases G.dir <;> simp
      · rename_i hdir
        simp only [Option.some.injEq, Prod.mk.injEq] at h
        obtain ⟨rfl, h⟩ := h
        cases hg : G.dir
        · have hp : P.dir = true := by cases hp : P.dir <;> simp_all
          simp only [hg, BTree.mk2_false, BTree.node.injEq] at h
          obtain ⟨rfl, rfl, rfl⟩ := h
          refine ⟨?_, ?_, rfl, rfl⟩ <;> simp [leftL, rightL, hp, hg, enumerate]
        · have hp : P.dir = false := by cases hp : P.dir <;> simp_all
          simp only [hg, BTree.mk2_true, BTree.node.injEq] at h
          obtain ⟨rfl, rfl, rfl⟩ := h
          refine ⟨?_, ?_, rfl, rfl⟩ <;> simp [leftL, rightL, hp, hg, enumerate]
    · simp at h
  · simp only [Option.some.injEq, Prod.mk.injEq, BTree.node.injEq] at h
    obtain ⟨rfl, rfl, rfl, rfl⟩ := h
    exact ⟨rfl, rfl, rfl, rfl⟩

theorem visit_split (d : RD K V) (l r : RTree K V) : ∃ d' l' r', visit key (.node d l r) = .node d' l' r' ∧
    enumerate l' = enumerate l ∧ enumerate r' = enumerate r ∧ d'.key = d.key ∧ d'.value = d.value := by
  simp only [visit]
  split
  · exact ⟨_, _, _, rfl, enumerate_setRed _ _, enumerate_setRed _ _, rfl, rfl⟩
  · exact ⟨_, _, _, rfl, rfl, rfl, rfl, rfl⟩

/-- What the end of the loop says about the sequence. -/
structure Wrote (cmp : K → K → Int) (key : K) (value : V) (old : List (K × V)) (found : Option V) (new : List (K × V)) : Prop where
  some : ∀ v0, found = some v0 → ∃ xs k0 ys, cmp k0 key = 0 ∧ old = xs ++ (k0, v0) :: ys ∧ new = xs ++ (k0, value) :: ys
  none : found = none → ∃ xs ys, old = xs ++ ys ∧ new = xs ++ (key, value) :: ys

theorem insStep_wrote {ctx : List (Frame K V)} {foc t : RTree K V} (h : insStep cmp key value ctx foc = .done t) :
    Wrote cmp key value (whole ctx foc) (get cmp foc key) (enumerate t) := by
  simp only [insStep] at h
  cases hf : fix ctx (visit key foc) with
  | none => simp [hf] at h
  | some x =>
    obtain ⟨c, n⟩ := x
    cases n with
    | nil => simp [hf] at h
    | node d l r =>
      simp only [hf] at h
      by_cases h0 : cmp d.key key = 0
      · simp only [h0, if_true, InsSt.done.injEq] at h
        subst h
        rw [enumerate_plug]
        simp only [whole, enumerate]
        cases foc with
        | nil =>
          obtain ⟨h1, h2, h3, _⟩ := fix_split hf
          refine ⟨fun v0 e => (nomatch e), fun _ => ⟨leftL ctx, rightL ctx, by simp [enumerate], ?_⟩⟩
          simp only [enumerate, List.append_nil, List.nil_append] at h1 h2
          rw [← h1, ← h2, h3]; simp
        | node d0 l0 r0 =>
          obtain ⟨d', l', r', hv, e1, e2, e3, e4⟩ := visit_split (key := key) d0 l0 r0
          rw [hv] at hf
          obtain ⟨h1, h2, h3, h4⟩ := fix_split hf
          rw [h3, e3] at h0
          refine ⟨fun v0 e => ⟨leftL ctx ++ enumerate l0, d0.key, enumerate r0 ++ rightL ctx, h0, ?_, ?_⟩, fun e => ?_⟩
          · simp only [get, h0, if_true, Option.some.injEq] at e
            simp [enumerate, e]
          · rw [← e1, ← e2, ← h1, ← h2, h3, e3]; simp
          · simp [get, h0] at e
      · simp only [h0, if_false] at h
        split at h <;> cases h

theorem insStep_whole {ctx ctx' : List (Frame K V)} {foc foc' : RTree K V} (h : insStep cmp key value ctx foc = .run ctx' foc') :
    (foc ≠ .nil → whole ctx' foc' = whole ctx foc) ∧ (foc = .nil → cmp key key ≠ 0) := by
  simp only [insStep] at h
  cases hf : fix ctx (visit key foc) with
  | none => simp [hf] at h
  | some x =>
    obtain ⟨c, n⟩ := x
    cases n with
    | nil => simp [hf] at h
    | node d l r =>
      simp only [hf] at h
      by_cases h0 : cmp d.key key = 0
      · simp [h0] at h
      · have hw : whole ctx' foc' = whole c (.node d l r) := by
          by_cases hlt : cmp d.key key < 0
          · simp only [h0, hlt, if_true, if_false, InsSt.run.injEq] at h
            obtain ⟨rfl, rfl⟩ := h
            simp [whole, leftL, rightL, enumerate]
          · simp only [h0, hlt, if_false, InsSt.run.injEq] at h
            obtain ⟨rfl, rfl⟩ := h
            simp [whole, leftL, rightL, enumerate]
        cases foc with
        | nil =>
          obtain ⟨_, _, h3, _⟩ := fix_split hf
          exact ⟨fun h => absurd rfl h, fun _ => by rw [h3] at h0; exact h0⟩
        | node d0 l0 r0 =>
          refine ⟨fun _ => ?_, fun h => (nomatch h)⟩
          obtain ⟨d', l', r', hv, e1, e2, e3, e4⟩ := visit_split (key := key) d0 l0 r0
          rw [hv] at hf
          obtain ⟨h1, h2, h3, h4⟩ := fix_split hf
          rw [hw]
          have : whole c (.node d l r) = (leftL c ++ enumerate l) ++ (d.key, d.value) :: (enumerate r ++ rightL c) := by
            simp [whole, enumerate]
          rw [this, h1, h2, e1, e2, h3, h4, e3, e4]
          simp [whole, enumerate]

theorem insSteps_wrote {n : Nat} {ctx : List (Frame K V)} {foc t : RTree K V} (hd : Dirs cmp key ctx)
    (hk : cmp key key = 0 ∨ (get cmp foc key).isSome = true)
    (h : insSteps cmp key value n (.run ctx foc) = .done t) :
    Wrote cmp key value (whole ctx foc) (get cmp foc key) (enumerate t) := by
  induction n generalizing ctx foc with
  | zero => cases h
  | succ n ih =>
    simp only [insSteps] at h
    cases hs : insStep cmp key value ctx foc with
    | run c f =>
      rw [hs] at h
      obtain ⟨h1, h2, h3⟩ := insStep_run hs hd
      obtain ⟨h4, h5⟩ := insStep_whole hs
      have hn : foc ≠ .nil := by
        rintro rfl
        rcases hk with hk | hk
        · exact h5 rfl hk
        · simp [get] at hk
      rw [← h4 hn, ← h3 hn]
      exact ih h2 (by rw [h3 hn]; exact hk) h
    | done t' =>
      rw [hs, insSteps_done] at h
      cases h
      exact insStep_wrote hs
    | panic => rw [hs, insSteps_panic] at h; cases h

theorem dirs_nil : Dirs cmp key ([] : List (Frame K V)) := fun f hf => by cases hf

/-- Insertion into a tree that is not empty, comparison of any kind. -/
theorem insert_any {t : RTree K V} (hb : Balanced t) (hn : t ≠ .nil) (key : K) (value : V) :
    ((cmp key key = 0 ∨ (get cmp t key).isSome = true) ∧ ∃ t', insert cmp t key value = some t' ∧ Balanced t' ∧
      get cmp t' key = some value ∧ Wrote cmp key value (enumerate t) (get cmp t key) (enumerate t') ∧
      insertAfter cmp t key value (2 * t.height + 2) = .done t') ∨
    (¬ (cmp key key = 0 ∨ (get cmp t key).isSome = true) ∧ insert cmp t key value = none ∧
      (∀ n, ∃ ctx foc, insertAfter cmp t key value n = .run ctx foc) ∧
      ∀ N, ∃ n ctx foc, insertAfter cmp t key value n = .run ctx foc ∧ N ≤ (plug foc ctx).size) := by
  obtain ⟨hr, n, hbal⟩ := hb
  have hdn : Dirs cmp key ([] : List (Frame K V)) := fun f hf => by cases hf
  have hins : insert cmp t key value = (insLoop cmp key value (2 * t.height + 2) [] t).map (setRed false) := by
    cases t with
    | nil => exact absurd rfl hn
    | node d l r => rfl
  have haft : ∀ n, insertAfter cmp t key value n = match insSteps cmp key value n (.run [] t) with
      | .done t => .done (setRed false t)
      | s => s := by
    intro n
    cases t with
    | nil => exact absurd rfl hn
    | node d l r => rfl
  -- the tagged run
  obtain ⟨t1, m, e1, e2⟩ := insLoop_balanced (cmp := tagCmp cmp key) (key := none) (value := value) rfl (fuel := 2 * (mapKT some t).height + 2)
      (ctx := []) (foc := mapKT some t) (n := n)
      ⟨(RBal_mapK some).2 hbal, trivial, by simp [parentRed], by simp [parentRed], by
        intro d l r he hx; exfalso
        have : isRed (mapKT some t) = true := by rw [he]; exact hx
        simp [hr] at this, by simp⟩
      (.inl (by omega))
  rw [insLoop_eq, height_mapKT] at e1
  have e3 : insSteps (tagCmp cmp key) none value (2 * t.height + 2) (.run ([].map (Frame.mapK some)) (mapKT some t)) = .done t1 := by
    rw [List.map_nil]
    cases h : insSteps (tagCmp cmp key) none value (2 * t.height + 2) (.run [] (mapKT some t)) with
    | done x => rw [h] at e1; simpa using e1
    | run c f => rw [h] at e1; cases e1
    | panic => rw [h] at e1; cases e1
  -- the end of a run
  have fin : ∀ t', insSteps cmp key value (2 * t.height + 2) (.run [] t) = .done t' → (∃ m, RBal t' m) →
      (cmp key key = 0 ∨ (get cmp t key).isSome = true) → ∃ t', insert cmp t key value = some t' ∧ Balanced t' ∧
      get cmp t' key = some value ∧ Wrote cmp key value (enumerate t) (get cmp t key) (enumerate t') ∧
      insertAfter cmp t key value (2 * t.height + 2) = .done t' := by
    intro t' h ⟨m, hm⟩ hk
    refine ⟨setRed false t', by simp [hins, insLoop_eq, h], ⟨isRed_setRed_false t', hm.setRed_false⟩, ?_, ?_, by simp [haft, h]⟩
    · rw [get_setRed]; exact (insSteps_way hdn).1 _ h
    · rw [enumerate_setRed]
      have := insSteps_wrote hdn hk h
      simpa [whole, leftL, rightL] using this
  by_cases hk : cmp key key = 0
  · -- reflexive: the loop of `insert` itself
    obtain ⟨t', m', e4, e5⟩ := insLoop_balanced (cmp := cmp) (key := key) (value := value) hk (fuel := 2 * t.height + 2)
      (ctx := []) (foc := t) (n := n)
      ⟨hbal, trivial, by simp [parentRed], by simp [parentRed], by
        intro d l r he hx; exfalso; rw [he] at hr; simp [hx] at hr, by simp⟩ (.inl (by omega))
    rw [insLoop_eq] at e4
    have e6 : insSteps cmp key value (2 * t.height + 2) (.run [] t) = .done t' := by
      cases h : insSteps cmp key value (2 * t.height + 2) (.run [] t) with
      | done x => rw [h] at e4; simpa using e4
      | run c f => rw [h] at e4; cases e4
      | panic => rw [h] at e4; cases e4
    exact .inl ⟨.inl hk, fin t' e6 ⟨m', e5⟩ (.inl hk)⟩
  · rcases insSteps_tag hn hdn e3 with ⟨hg, t', h1, h2⟩ | ⟨h0, n, c, h1, h2, h3⟩
    · subst h2
      exact .inl ⟨.inr hg, fin t' h1 ⟨m, (RBal_mapK some).1 e2⟩ (.inr hg)⟩
    · have hng : ¬ (cmp key key = 0 ∨ (get cmp t key).isSome = true) := by simp [hk, h0]
      have hrun : ∀ j, ∃ ctx foc, insSteps cmp key value (n + j) (.run [] t) = .run ctx foc := by
        intro j
        obtain ⟨c', f', h4, _⟩ := lost_forever (value := value) hk j (.inl ⟨rfl, h3⟩)
        exact ⟨c', f', by rw [insSteps_add, h2, h4]⟩
      have hall : ∀ j, ∃ ctx foc, insSteps cmp key value j (.run [] t) = .run ctx foc := by
        intro j
        obtain ⟨c', f', h4⟩ := hrun j
        rw [Nat.add_comm, insSteps_add] at h4
        cases h5 : insSteps cmp key value j (.run [] t) with
        | run c f => exact ⟨c, f, rfl⟩
        | done x => rw [h5, insSteps_done] at h4; cases h4
        | panic => rw [h5, insSteps_panic] at h4; cases h4
      refine .inr ⟨hng, ?_, fun j => ?_, fun N => ?_⟩
      · obtain ⟨c', f', h4⟩ := hall (2 * t.height + 2)
        simp [hins, insLoop_eq, h4]
      · obtain ⟨c', f', h4⟩ := hall j
        exact ⟨c', f', by simp [haft, h4]⟩
      · obtain ⟨c', f', h4, h5⟩ := lost_grows (value := value) hk N (.inl ⟨rfl, h3⟩)
        refine ⟨n + 2 * N, c', f', ?_, by rw [size_plug]; exact h5⟩
        simp only [haft]
        rw [insSteps_add, h2, h4]

end

/-! ## del -/

/-- Every frame marked as the target holds a key equal to `key`. -/
def Marked (cmp : K → K → Int) (key : K) (ctx : List (Frame K V)) : Prop := ∀ f ∈ ctx, f.tgt = true → cmp f.d.key key = 0

theorem delFix_marked {ctx : List (Frame K V)} {f : Frame K V} (x : RTree K V) (h : Marked cmp key (f :: ctx)) :
    Marked cmp key (delFix ctx f x) := by
  have hf := h f (by simp)
  have hc : Marked cmp key ctx := fun g hg => h g (by simp [hg])
  have hsingle : ∀ (P : Frame K V) rest sd s, ctx = P :: rest → Marked cmp key (delFix.single P f rest sd s) := by
    rintro P rest sd s rfl g hg
    simp only [delFix.single, List.mem_cons] at hg
    rcases hg with rfl | rfl | rfl | hg
    · exact hf
    · exact hc P (by simp)
    · intro h; cases h
    · exact hc g (by simp [hg])
  have hsib : Marked cmp key (delFix.delSib ctx f) := by
    unfold delFix.delSib
    split
    · rename_i P rest
      have hP := hc P (by simp)
      have hr : Marked cmp key rest := fun g hg => hc g (by simp [hg])
      split
      · simp only
        split
        · intro g hg
          simp only [List.mem_cons] at hg
          rcases hg with rfl | rfl | hg
          · exact hf
          · exact hP
          · exact hr g hg
        · split
          · split
            · intro g hg
              simp only [List.mem_cons] at hg
              rcases hg with rfl | rfl | rfl | hg
              · exact hf
              · exact hP
              · intro h; cases h
              · exact hr g hg
            · exact hsingle _ _ _ _ rfl
          · exact hsingle _ _ _ _ rfl
      · exact h
    · exact h
  unfold delFix
  split
  · split
    · split
      · intro g hg
        simp only [List.mem_cons] at hg
        rcases hg with rfl | rfl | hg
        · exact hf
        · intro h; cases h
        · exact hc g hg
      · exact hsib
    · exact hsib
  · exact h

theorem perm_swap_mid {A : Type} (p q : A) (xs ys : List A) : (p :: (xs ++ q :: ys)).Perm (q :: (xs ++ p :: ys)) :=
  (List.perm_middle.cons _).trans ((List.Perm.swap _ _ _).trans (.cons _ List.perm_middle.symm))

/-- Writing a pair over the target takes the target's pair out. -/
theorem setTgt_perm {ctx : List (Frame K V)} (hm : Marked cmp key ctx) (ht : ctx.any (·.tgt) = true) (k : K) (v : V) (M : List (K × V)) :
    ∃ p ∈ leftL ctx ++ rightL ctx, cmp p.1 key = 0 ∧
      (p :: (leftL (setTgt k v ctx) ++ M ++ rightL (setTgt k v ctx))).Perm ((k, v) :: (leftL ctx ++ M ++ rightL ctx)) := by
  induction ctx generalizing M with
  | nil => simp at ht
  | cons f fs ih =>
    by_cases hf : f.tgt = true
    · refine ⟨(f.d.key, f.d.value), ?_, hm f (by simp) hf, ?_⟩
      · simp only [leftL, rightL]; cases f.dir <;> simp
      · simp only [setTgt, hf, if_true, leftL, rightL]
        cases f.dir
        · simpa using perm_swap_mid (f.d.key, f.d.value) (k, v) (leftL fs ++ M) (enumerate f.sib ++ rightL fs)
        · simpa using perm_swap_mid (f.d.key, f.d.value) (k, v) (leftL fs ++ enumerate f.sib) (M ++ rightL fs)
    · have hf' : f.tgt = false := by simpa using hf
      simp only [List.any_cons, hf', Bool.false_or] at ht
      have hs : setTgt k v (f :: fs) = f :: setTgt k v fs := by simp [setTgt, hf']
      rw [hs]
      obtain ⟨p, h1, h2, h3⟩ := ih (fun g hg => hm g (by simp [hg])) ht
        ((if f.dir then enumerate f.sib ++ [(f.d.key, f.d.value)] else []) ++ M ++ (if f.dir then [] else (f.d.key, f.d.value) :: enumerate f.sib))
      refine ⟨p, ?_, h2, ?_⟩
      · simp only [leftL, rightL, List.mem_append] at h1 ⊢
        rcases h1 with h1 | h1
        · exact .inl (.inl h1)
        · exact .inr (.inr h1)
      · simp only [leftL, rightL]
        simpa only [List.append_assoc] using h3

/-- Deletion, comparison of any kind: one equal key goes, or nothing changes. -/
structure Erased (cmp : K → K → Int) (key : K) (old : List (K × V)) (found : Bool) (new : List (K × V)) : Prop where
  yes : found = true → ∃ p ∈ old, cmp p.1 key = 0 ∧ (p :: new).Perm old
  no : found = false → new = old

theorem delEnd_any {ctx : List (Frame K V)} (hm : Marked cmp key ctx) :
    (delEnd ctx).2 = ctx.any (·.tgt) ∧ Erased cmp key (leftL ctx ++ rightL ctx) (delEnd ctx).2 (enumerate (delEnd ctx).1) := by
  cases ctx with
  | nil => exact ⟨rfl, (nomatch ·), fun _ => rfl⟩
  | cons f rest =>
    unfold delEnd
    by_cases hf : f.tgt = true
    · simp only [hf, if_true, List.any_cons, Bool.true_or, true_and]
      refine ⟨fun _ => ⟨(f.d.key, f.d.value), ?_, hm f (by simp) hf, ?_⟩, (nomatch ·)⟩
      · simp only [leftL, rightL]; cases f.dir <;> simp
      · rw [enumerate_plug]
        simp only [leftL, rightL, whole]
        cases f.dir
        · simp only [Bool.false_eq_true, if_false, List.append_nil, List.cons_append, List.append_assoc]
          exact List.perm_middle.symm
        · simp only [if_true, List.nil_append, List.append_assoc, List.singleton_append]
          rw [← List.append_assoc, ← List.append_assoc]
          exact List.perm_middle.symm
    · have hf' : f.tgt = false := by simpa using hf
      simp only [hf', Bool.false_eq_true, if_false, List.any_cons, Bool.false_or]
      by_cases hr : rest.any (·.tgt) = true
      · simp only [hr, if_true, true_and]
        refine ⟨fun _ => ?_, (nomatch ·)⟩
        obtain ⟨p, h1, h2, h3⟩ := setTgt_perm (fun g hg => hm g (by simp [hg])) hr f.d.key f.d.value (enumerate f.sib)
        refine ⟨p, ?_, h2, ?_⟩
        · simp only [leftL, rightL, List.mem_append] at h1 ⊢
          rcases h1 with h1 | h1
          · exact .inl (.inl h1)
          · exact .inr (.inr h1)
        · rw [enumerate_plug]
          refine h3.trans ?_
          simp only [leftL, rightL]
          cases f.dir
          · simp only [Bool.false_eq_true, if_false, List.append_nil, List.cons_append, List.append_assoc]
            exact List.perm_middle.symm
          · simp only [if_true, List.nil_append, List.append_assoc, List.singleton_append]
            rw [← List.append_assoc, ← List.append_assoc]
            exact List.perm_middle.symm
      · have hr' : rest.any (·.tgt) = false := by simpa using hr
        simp only [hr', Bool.false_eq_true, if_false, true_and]
        refine ⟨(nomatch ·), fun _ => ?_⟩
        rw [enumerate_plug]
        simp only [leftL, rightL, whole, enumerate_mk2]
        cases f.dir <;> simp [enumerate]

theorem delLoop_any {ctx : List (Frame K V)} {foc : RTree K V} (hm : Marked cmp key ctx) :
    (delLoop cmp key ctx foc).2 = (ctx.any (·.tgt) || (get cmp foc key).isSome) ∧
    Erased cmp key (whole ctx foc) (delLoop cmp key ctx foc).2 (enumerate (delLoop cmp key ctx foc).1) := by
  induction foc generalizing ctx with
  | nil => simpa [delLoop, get, whole, enumerate] using delEnd_any hm
  | node d l r ihl ihr =>
    unfold delLoop
    simp only
    by_cases hlt : cmp d.key key < 0
    · simp only [hlt, if_true]
      obtain ⟨s1, s2, s3, _⟩ := delFix_spec ctx { d := d, dir := true, sib := l, tgt := false } r
      have hm' : Marked cmp key (delFix ctx { d := d, dir := true, sib := l, tgt := false } r) :=
        delFix_marked r (fun g hg => by
          simp only [List.mem_cons] at hg
          rcases hg with rfl | hg
          · intro h; cases h
          · exact hm g hg)
      obtain ⟨h1, h2⟩ := ihr hm'
      have h0 : cmp d.key key ≠ 0 := by omega
      refine ⟨by rw [h1, s3]; simp [get, h0, hlt], ?_⟩
      have : whole (delFix ctx { d := d, dir := true, sib := l, tgt := false } r) r = whole ctx (.node d l r) := by
        simp only [whole, s1, s2]; simp [leftL, rightL, enumerate]
      rw [← this]; exact h2
    · simp only [hlt, if_false]
      obtain ⟨s1, s2, s3, _⟩ := delFix_spec ctx { d := d, dir := false, sib := r, tgt := decide (cmp d.key key = 0) } l
      have hm' : Marked cmp key (delFix ctx { d := d, dir := false, sib := r, tgt := decide (cmp d.key key = 0) } l) :=
        delFix_marked l (fun g hg => by
          simp only [List.mem_cons] at hg
          rcases hg with rfl | hg
          · intro h; simpa using h
          · exact hm g hg)
      obtain ⟨h1, h2⟩ := ihl hm'
      refine ⟨by rw [h1, s3]; by_cases h0 : cmp d.key key = 0 <;> simp [get, h0, hlt], ?_⟩
      have : whole (delFix ctx { d := d, dir := false, sib := r, tgt := decide (cmp d.key key = 0) } l) l = whole ctx (.node d l r) := by
        simp only [whole, s1, s2]; simp [leftL, rightL, enumerate]
      rw [← this]; exact h2

theorem del_any (cmp : K → K → Int) (t : RTree K V) (key : K) :
    (del cmp t key).2 = (get cmp t key).isSome ∧ Erased cmp key (enumerate t) (del cmp t key).2 (enumerate (del cmp t key).1) := by
  obtain ⟨h1, h2⟩ := delLoop_any (cmp := cmp) (key := key) (ctx := []) (foc := t) (fun f hf => by cases hf)
  simp only [del, enumerate_setRed]
  exact ⟨by simpa using h1, by simpa [whole, leftL, rightL] using h2⟩

end Verif.RB
