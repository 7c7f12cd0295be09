import Verif.Heap.RelayInv

/-!
# A rule each goroutine can keep to by itself

A goroutine keeps the trees it holds in groups: a tree it starts is a group of its own, a tree derived from another is in the same group.  When it sends a tree of a group and keeps others of
it, or the tree itself, the group is shared from then on.  A tree received from a mailbox for trees that are given away whole is a group of its own; other trees received are shared.  If
all goroutines insert in place, and give away whole, only trees that are not shared and are the only ones left of their group, then in no schedule an in-place insertion meets a tree
that shares nodes with another (`Relay.Legal`).
-/

namespace Verif.Heap
open Prog
variable {D O R K A M T : Type} {I : OImpl D O R}

/-- Not shared with other goroutines, and the only one of its group here. -/
def Lone (fl : List (Option Nat)) (i : Nat) : Prop := ∀ x, fl[i]? = some x → x ≠ none ∧ ∀ j, j ≠ i → fl[j]? ≠ some x

theorem Lone.one (g : Nat) : Lone [some g] 0 := fun x hx => by
  cases hx
  exact ⟨fun h => (by cases h), fun j hj => by cases j with
    | zero => exact (hj rfl).elim
    | succ j => simp⟩

/-- The group of the `i`-th tree is now shared with other goroutines. -/
def shareOut (fl : List (Option Nat)) (i : Nat) : List (Option Nat) := fl.map fun x => if fl[i]? = some x then none else x

/-- The rule.  `fl`: for every tree held, the group it belongs to, if all trees it may share nodes with are held by this goroutine too and are in the same group, otherwise `none`; `own m`:
whether the mailbox is for trees given away whole; `J`: what is kept up about the calls that make trees, and makes the calls covered ones. -/
def Errand.Owns (I : OImpl D O R) (J : List O → Prop) (own : M → Bool) : List (Option Nat) → Errand O K A M → Prop
  | _, .done => True
  | fl, .call .fresh k => ∃ g, k.Owns I J own (fl ++ [some g])
  | fl, .call (.cow i o) k => (∀ l, J l → I.cowOk l o ∧ J (o :: l)) ∧ k.Owns I J own (fl ++ (fl[i]?).toList)
  | fl, .call (.inp i o) k => (∀ l, J l → I.inpOk l o ∧ J (o :: l)) ∧ Lone fl i ∧ k.Owns I J own fl
  | fl, .call (.drop i) k => k.Owns I J own (fl.eraseIdx i)
  | fl, .ask _ _ k => ∀ a, (k a).Owns I J own fl
  | fl, .send i m k => own m = false ∧ k.Owns I J own (shareOut fl i)
  | fl, .give i m k => (own m = true ∧ Lone fl i ∧ k.Owns I J own (fl.eraseIdx i)) ∨ (own m = false ∧ k.Owns I J own ((shareOut fl i).eraseIdx i))
  | fl, .recv m k => ∃ g, k.Owns I J own (fl ++ [if own m then some g else none])
  | fl, .poll m k => (k false).Owns I J own fl ∧ ∃ g, (k true).Owns I J own (fl ++ [if own m then some g else none])

def What.Owns (I : OImpl D O R) (J : List O → Prop) (own : M → Bool) (fl : List (Option Nat)) : What O K A M → Prop
  | .call op k => (Errand.call op k).Owns I J own fl
  | .ask _ _ k => ∀ a, (k a).Owns I J own fl

/-- Where a tree can be: with a goroutine, in a mailbox. -/
abbrev Berth (T M : Type) := (T × Nat) ⊕ (M × Nat)

def Berth.at (own : M → Bool) (G : T → List (Option Nat × Nat × List O)) (post : M → List (Nat × List O)) : Berth T M → Option (Option Nat × Nat × List O)
  | .inl (t, i) => (G t)[i]?
  | .inr (m, j) => ((post m)[j]?).map fun v => (if own m then some 0 else none, v)

/-- With the same goroutine. -/
def Berth.Mates : Berth T M → Berth T M → Prop
  | .inl (t, _), .inl (u, _) => t = u
  | _, _ => False

/-- A tree that is not shared has its origin in common only with trees of its group. -/
def Uniq (J : List O → Prop) (n : Nat) (c : Berth T M → Option (Option Nat × Nat × List O)) : Prop :=
  (∀ p e, c p = some e → J e.2.2 ∧ e.2.1 < n) ∧ ∀ p q e e', p ≠ q → c p = some e → c q = some e' → e.1 ≠ none → e'.2.1 = e.2.1 → p.Mates q ∧ e'.1 = e.1

theorem Uniq.move {J : List O → Prop} {n : Nat} {c c' : Berth T M → Option (Option Nat × Nat × List O)} (hu : Uniq J n c) (φ : Berth T M → Berth T M)
    (h : ∀ p e, c' p = some e → ∃ e', c (φ p) = some e' ∧ e.2.1 = e'.2.1 ∧ (e.1 ≠ none → e'.1 ≠ none) ∧ (e.2.2 = e'.2.2 ∨ J e.2.2))
    (k : ∀ p q e e' f f', p ≠ q → c' p = some e → c' q = some e' → e.1 ≠ none → c (φ p) = some f → c (φ q) = some f' → (φ p = φ q ∨ ((φ p).Mates (φ q) ∧ f'.1 = f.1)) →
      p.Mates q ∧ e'.1 = e.1) : Uniq J n c' := by
  refine ⟨fun p e hp => ?_, fun p q e e' hpq hp hq he ho => ?_⟩
  · obtain ⟨e', h1, h2, _, h4⟩ := h p e hp
    obtain ⟨k1, k2⟩ := hu.1 _ _ h1
    exact ⟨h4.elim (fun k => k ▸ k1) id, by omega⟩
  · obtain ⟨f, h1, h2, h3, _⟩ := h p e hp
    obtain ⟨f', h1', h2', _, _⟩ := h q e' hq
    refine k p q e e' f f' hpq hp hq he h1 h1' (Classical.byCases (p := φ p = φ q) .inl fun hne => .inr ?_)
    exact hu.2 _ _ _ _ hne h1 h1' (h3 he) (by rw [← h2, ← h2', ho])

structure Owned (I : OImpl D O R) (J : List O → Prop) (own : M → Bool) (w : Relay D O R K A M T) (G : T → List (Option Nat × Nat × List O)) : Prop where
  held : ∀ t, w.held t = (G t).map (·.2)
  uniq : Uniq J w.next (Berth.at own G w.post)
  idle : ∀ t rs e, w.gor t = .idle rs e → e.Owns I J own ((G t).map (·.1))
  busy : ∀ t p rs x, w.gor t = .busy p rs x → x.Owns I J own ((G t).map (·.1))

variable {J : List O → Prop} {own : M → Bool} {w : Relay D O R K A M T} {G : T → List (Option Nat × Nat × List O)}

/-- Who keeps to the rule does what is allowed. -/
theorem Owned.legal [DecidableEq T] [DecidableEq M] (ho : Owned I J own w G) (t : T) : w.Legal I t := by
  intro rs op k hd
  have hO := ho.idle t rs _ hd
  have at_ : ∀ u (i : Nat) v, (w.held u)[i]? = some v → ∃ f, (G u)[i]? = some (f, v) := fun u i v hv => by
    rw [ho.held, List.getElem?_map] at hv
    cases hg : (G u)[i]? with
    | none => rw [hg] at hv; cases hv
    | some e => rw [hg] at hv; cases hv; exact ⟨e.1, rfl⟩
  have fit : ∀ (i : Nat) v, (w.held t)[i]? = some v → J v.2 := fun i v hv => by
    obtain ⟨f, hf⟩ := at_ t i v hv
    exact (ho.uniq.1 (.inl (t, i)) _ hf).1
  cases op with
  | fresh => exact ⟨trivial, fun _ _ h => by cases h⟩
  | drop i => exact ⟨trivial, fun _ _ h => by cases h⟩
  | cow i o => exact ⟨fun v hv => (hO.1 v.2 (fit i v hv)).1, fun _ _ h => by cases h⟩
  | inp i o =>
    obtain ⟨h1, h2, h3⟩ := hO
    have sole : ∀ v, (w.held t)[i]? = some v → ∀ q e', q ≠ .inl (t, i) → Berth.at own G w.post q = some e' → e'.2.1 ≠ v.1 := fun v hv q e' hq he' => by
      obtain ⟨f, hf⟩ := at_ t i v hv
      intro hor
      obtain ⟨l1, l2⟩ := h2 f (by rw [List.getElem?_map, hf]; rfl)
      obtain ⟨k1, k2⟩ := ho.uniq.2 (.inl (t, i)) q (f, v) e' (fun k => hq k.symm) hf he' l1 hor
      rcases q with ⟨u, j⟩ | q
      · cases k1
        refine l2 j (fun e => hq (by rw [e])) ?_
        rw [List.getElem?_map, show (G t)[j]? = some e' from he']
        exact congrArg some k2
      · exact k1
    refine ⟨fun v hv => ⟨(h1 v.2 (fit i v hv)).1, fun j u hj hu => ?_⟩, fun i' o' h v hv => ?_⟩
    · obtain ⟨f, hf⟩ := at_ t j u hu
      exact sole v hv (.inl (t, j)) (f, u) (fun k => by cases k; exact hj rfl) hf
    · cases h
      refine ⟨fun u hu x hx => ?_, fun m x hx => ?_⟩
      · obtain ⟨j, hj⟩ := List.getElem?_of_mem hx
        obtain ⟨f, hf⟩ := at_ u j x hj
        exact sole v hv (.inl (u, j)) (f, x) (fun k => by cases k; exact hu rfl) hf
      · obtain ⟨j, hj⟩ := List.getElem?_of_mem hx
        exact sole v hv (.inr (m, j)) (if own m then some 0 else none, x) (fun k => by cases k) (by simp [Berth.at, hj])

section
variable [DecidableEq T] [DecidableEq M]

omit [DecidableEq M] in
/-- A turn of `t` after which it holds `gs` and the mailboxes are `post'`. -/
theorem Owned.turn (ho : Owned I J own w G) {w' : Relay D O R K A M T} {t : T} (gs : List (Option Nat × Nat × List O)) (hgor : ∀ u, u ≠ t → w'.gor u = w.gor u)
    (hheld : ∀ u, w'.held u = if u = t then gs.map (·.2) else w.held u) (hu : Uniq J w'.next (Berth.at own (setAt G t gs) w'.post))
    (hidle : ∀ rs e, w'.gor t = .idle rs e → e.Owns I J own (gs.map (·.1))) (hbusy : ∀ p rs x, w'.gor t = .busy p rs x → x.Owns I J own (gs.map (·.1))) : ∃ G', Owned I J own w' G' := by
  refine ⟨setAt G t gs, fun u => ?_, hu, fun u rs e hx => ?_, fun u p rs x hx => ?_⟩
  · rw [hheld]
    simp only [setAt]
    by_cases h : u = t
    · rw [if_pos h, if_pos h]
    · rw [if_neg h, if_neg h]; exact ho.held u
  · simp only [setAt]
    by_cases h : u = t
    · subst h; rw [if_pos rfl]; exact hidle rs e hx
    · rw [if_neg h]; rw [hgor u h] at hx; exact ho.idle u rs e hx
  · simp only [setAt]
    by_cases h : u = t
    · subst h; rw [if_pos rfl]; exact hbusy p rs x hx
    · rw [if_neg h]; rw [hgor u h] at hx; exact ho.busy u p rs x hx

omit [DecidableEq M] in
/-- A turn that changes neither who holds what nor the mailboxes. -/
theorem Owned.stay (ho : Owned I J own w G) {w' : Relay D O R K A M T} {t : T} (hgor : ∀ u, u ≠ t → w'.gor u = w.gor u) (hheld : w'.held = w.held) (hpost : w'.post = w.post) (hnext : w'.next = w.next)
    (hidle : ∀ rs e, w'.gor t = .idle rs e → e.Owns I J own ((G t).map (·.1))) (hbusy : ∀ p rs x, w'.gor t = .busy p rs x → x.Owns I J own ((G t).map (·.1))) : ∃ G', Owned I J own w' G' := by
  refine ho.turn (t := t) (G t) hgor (fun u => ?_) ?_ hidle hbusy
  · rw [hheld, ho.held u]
    by_cases h : u = t
    · rw [if_pos h, h]
    · rw [if_neg h]
  · rw [setAt_self, hpost, hnext]; exact ho.uniq

omit [DecidableEq M] in
theorem at_inl {u t : T} {gs : List (Option Nat × Nat × List O)} {post : M → List (Nat × List O)} {i : Nat} :
    Berth.at own (setAt G t gs) post (.inl (u, i)) = if u = t then gs[i]? else (G u)[i]? := by
  simp only [Berth.at, setAt]
  by_cases h : u = t
  · rw [if_pos h, if_pos h]
  · rw [if_neg h, if_neg h]

omit [DecidableEq T] in
theorem at_inr {u m : M} {l : List (Nat × List O)} {post : M → List (Nat × List O)} {i : Nat} :
    Berth.at own G (setAt post m l) (.inr (u, i) : Berth T M) = (if u = m then l[i]? else (post u)[i]?).map fun v => (if own u then some 0 else none, v) := by
  simp only [Berth.at, setAt]
  by_cases h : u = m
  · rw [if_pos h, if_pos h]
  · rw [if_neg h, if_neg h]

omit [DecidableEq M] in
/-- A tree is given up. -/
theorem Uniq.drop {post : M → List (Nat × List O)} {n : Nat} (hu : Uniq J n (Berth.at own G post)) (t : T) (i : Nat) : Uniq J n (Berth.at own (setAt G t ((G t).eraseIdx i)) post) := by
  have old : ∀ p e, Berth.at own (setAt G t ((G t).eraseIdx i)) post p = some e → Berth.at own G post (match p with
    | .inl (u, j) => .inl (u, if u = t ∧ i ≤ j then j + 1 else j)
    | .inr q => .inr q) = some e := fun p e hp => by
    rcases p with ⟨u, j⟩ | ⟨m, j⟩
    · rw [at_inl] at hp
      by_cases h : u = t
      · subst h
        rw [if_pos rfl, List.getElem?_eraseIdx] at hp
        by_cases hj : j < i
        · rw [if_pos hj] at hp
          simp only [Berth.at, true_and]
          rw [if_neg (by omega)]; exact hp
        · rw [if_neg hj] at hp
          simp only [Berth.at, true_and]
          rw [if_pos (by omega)]; exact hp
      · rw [if_neg h] at hp
        simp only [Berth.at]
        rw [if_neg (fun k => h k.1)]; exact hp
    · exact hp
  refine hu.move (fun p => match p with
    | .inl (u, j) => .inl (u, if u = t ∧ i ≤ j then j + 1 else j)
    | .inr q => .inr q) (fun p e hp => ⟨e, old p e hp, rfl, id, .inl rfl⟩) (fun p q e e' f f' hpq hp hq he hf hf' hk => ?_)
  rw [old p e hp] at hf
  rw [old q e' hq] at hf'
  cases hf; cases hf'
  rcases p with ⟨u, j⟩ | ⟨m, j⟩ <;> rcases q with ⟨u', j'⟩ | ⟨m', j'⟩
  · rcases hk with hk | hk
    · simp only [Sum.inl.injEq, Prod.mk.injEq] at hk
      obtain ⟨rfl, hk⟩ := hk
      refine (hpq ?_).elim
      by_cases hu : u = t
      · by_cases h1 : i ≤ j <;> by_cases h2 : i ≤ j' <;> simp [hu, h1, h2] at hk <;> rw [show j = j' by omega]
      · simp [hu] at hk; rw [hk]
    · exact hk
  · rcases hk with hk | hk
    · cases hk
    · exact hk.1.elim
  · rcases hk with hk | hk
    · cases hk
    · exact hk.1.elim
  · rcases hk with hk | hk
    · exact (hpq hk).elim
    · exact hk.1.elim

omit [DecidableEq M] in
/-- A group of trees is from now on shared. -/
theorem Uniq.share {post : M → List (Nat × List O)} {n : Nat} (hu : Uniq J n (Berth.at own G post)) (t : T) (x : Option Nat) :
    Uniq J n (Berth.at own (setAt G t ((G t).map fun e => if x = e.1 then (none, e.2) else e)) post) := by
  have old : ∀ p e, Berth.at own (setAt G t ((G t).map fun e => if x = e.1 then (none, e.2) else e)) post p = some e →
      ∃ f, Berth.at own G post p = some f ∧ e.2 = f.2 ∧ ((e.1 = none) ∨ e = f) ∧ ∀ a, p = .inl (t, a) → e = if x = f.1 then (none, f.2) else f := fun p e hp => by
    rcases p with ⟨u, j⟩ | ⟨m, j⟩
    · rw [at_inl] at hp
      by_cases h : u = t
      · subst h
        rw [if_pos rfl, List.getElem?_map, Option.map_eq_some_iff] at hp
        obtain ⟨f, h1, rfl⟩ := hp
        refine ⟨f, h1, ?_, ?_, fun _ _ => rfl⟩ <;> by_cases hx : x = f.1 <;> simp [hx]
      · rw [if_neg h] at hp
        exact ⟨e, hp, rfl, .inr rfl, fun a ha => by cases ha; exact (h rfl).elim⟩
    · exact ⟨e, hp, rfl, .inr rfl, fun a ha => by cases ha⟩
  refine hu.move id (fun p e hp => ?_) (fun p q e e' f f' hpq hp hq he hf hf' hk => ?_)
  · obtain ⟨f, h1, h2, h3, _⟩ := old p e hp
    refine ⟨f, h1, by rw [h2], fun he => ?_, .inl (by rw [h2])⟩
    rcases h3 with h3 | rfl
    · exact (he h3).elim
    · exact he
  · rcases hk with hk | ⟨hk, hk'⟩
    · exact (hpq hk).elim
    refine ⟨hk, ?_⟩
    obtain ⟨f1, h1, h2, h3, h4⟩ := old p e hp
    obtain ⟨f1', h1', h2', h3', h4'⟩ := old q e' hq
    rw [show f = f1 from Option.some.inj (hf.symm.trans h1)] at hk'
    rw [show f' = f1' from Option.some.inj (hf'.symm.trans h1')] at hk'
    have hef : e = f1 := h3.resolve_left he
    rcases h3' with h5 | rfl
    · -- `q` has been shared, so it is with `t` and in the group, and so is `p`
      rcases p with ⟨u, a⟩ | _
      · rcases q with ⟨u', b⟩ | _
        · cases hk
          by_cases ht : u = t
          · subst ht
            have e1 := h4 a rfl
            have e2 := h4' b rfl
            by_cases hx : x = f1.1
            · rw [if_pos hx] at e1
              rw [e1] at he
              exact (he rfl).elim
            · rw [if_neg (by rw [hk']; exact hx)] at e2
              rw [e2, hef, hk']
          · rw [at_inl, if_neg ht] at hp hq
            have a1 := Option.some.inj (hp.symm.trans h1)
            have a2 := Option.some.inj (hq.symm.trans h1')
            rw [a1, a2, hk']
        · exact hk.elim
      · exact hk.elim
    · rw [hk', hef]

/-- A tree of a shared group is sent. -/
theorem Uniq.send {post : M → List (Nat × List O)} {n : Nat} (hu : Uniq J n (Berth.at own G post)) (t : T) (i : Nat) (m : M) (hm : own m = false) {v : Nat × List O}
    (hi : (G t)[i]? = some (none, v)) : Uniq J n (Berth.at own G (setAt post m (post m ++ [v]))) := by
  have old : ∀ p e, Berth.at own G (setAt post m (post m ++ [v])) p = some e → (p = .inr (m, (post m).length) ∧ e = (none, v)) ∨ Berth.at own G post p = some e := fun p e hp => by
    rcases p with ⟨u, j⟩ | ⟨m', j⟩
    · exact .inr hp
    · rw [at_inr] at hp
      by_cases h : m' = m
      · subst h
        rw [if_pos rfl] at hp
        by_cases hj : j = (post m').length
        · rw [hj, List.getElem?_append_right (Nat.le_refl _), Nat.sub_self] at hp
          cases hp
          exact .inl ⟨by rw [hj], by simp [hm]⟩
        · by_cases hj' : j < (post m').length
          · rw [List.getElem?_append_left hj'] at hp
            exact .inr hp
          · rw [List.getElem?_append_right (by omega), List.getElem?_eq_none (by simp; omega)] at hp
            cases hp
      · rw [if_neg h] at hp
        exact .inr hp
  refine ⟨fun p e hp => ?_, fun p q e e' hpq hp hq he hor => ?_⟩
  · rcases old p e hp with ⟨_, rfl⟩ | h
    · exact hu.1 (.inl (t, i)) _ hi
    · exact hu.1 p e h
  · rcases old p e hp with ⟨_, rfl⟩ | h
    · exact (he rfl).elim
    · rcases old q e' hq with ⟨rfl, rfl⟩ | h'
      · by_cases hpi : p = .inl (t, i)
        · rw [hpi] at h
          rw [show e = (none, v) from Option.some.inj (h.symm.trans hi)] at he
          exact (he rfl).elim
        · have := (hu.2 p (.inl (t, i)) e _ hpi h hi he hor).2
          exact (he this.symm).elim
      · exact hu.2 p q e e' hpq h h' he hor

/-- A tree that is the only one of its group is given away. -/
theorem Uniq.give {post : M → List (Nat × List O)} {n : Nat} (hu : Uniq J n (Berth.at own G post)) (t : T) (i : Nat) (m : M) (hm : own m = true) {f : Option Nat} {v : Nat × List O}
    (hi : (G t)[i]? = some (f, v)) (hl : Lone ((G t).map (·.1)) i) : Uniq J n (Berth.at own (setAt G t ((G t).eraseIdx i)) (setAt post m (post m ++ [v]))) := by
  obtain ⟨l1, l2⟩ := hl f (by rw [List.getElem?_map, hi]; rfl)
  have alone : ∀ q e, q ≠ .inl (t, i) → Berth.at own G post q = some e → e.2.1 ≠ v.1 := fun q e hq he hor => by
    obtain ⟨k1, k2⟩ := hu.2 (.inl (t, i)) q (f, v) e (fun k => hq k.symm) hi he l1 hor
    rcases q with ⟨u, j⟩ | q
    · cases k1
      refine l2 j (fun e => hq (by rw [e])) ?_
      rw [List.getElem?_map, show (G t)[j]? = some e from he]
      exact congrArg some k2
    · exact k1
  have hd := hu.drop t i
  have lost : ∀ q e, Berth.at own (setAt G t ((G t).eraseIdx i)) post q = some e → e.2.1 ≠ v.1 := fun q e he => by
    rcases q with ⟨u, j⟩ | ⟨m', j⟩
    · rw [at_inl] at he
      by_cases h : u = t
      · subst h
        rw [if_pos rfl, List.getElem?_eraseIdx] at he
        by_cases hj : j < i
        · rw [if_pos hj] at he
          exact alone (.inl (u, j)) e (fun k => by cases k; omega) he
        · rw [if_neg hj] at he
          exact alone (.inl (u, j + 1)) e (fun k => by simp at k; omega) he
      · rw [if_neg h] at he
        exact alone (.inl (u, j)) e (fun k => by cases k; exact h rfl) he
    · exact alone (.inr (m', j)) e (fun k => by cases k) he
  have old : ∀ p e, Berth.at own (setAt G t ((G t).eraseIdx i)) (setAt post m (post m ++ [v])) p = some e →
      (p = .inr (m, (post m).length) ∧ e.2 = v) ∨ Berth.at own (setAt G t ((G t).eraseIdx i)) post p = some e := fun p e hp => by
    rcases p with ⟨u, j⟩ | ⟨m', j⟩
    · exact .inr hp
    · rw [at_inr] at hp
      by_cases h : m' = m
      · subst h
        rw [if_pos rfl] at hp
        by_cases hj : j = (post m').length
        · rw [hj, List.getElem?_append_right (Nat.le_refl _), Nat.sub_self] at hp
          cases hp
          exact .inl ⟨by rw [hj], rfl⟩
        · by_cases hj' : j < (post m').length
          · rw [List.getElem?_append_left hj'] at hp
            exact .inr hp
          · rw [List.getElem?_append_right (by omega), List.getElem?_eq_none (by simp; omega)] at hp
            cases hp
      · rw [if_neg h] at hp
        exact .inr hp
  refine ⟨fun p e hp => ?_, fun p q e e' hpq hp hq he hor => ?_⟩
  · rcases old p e hp with ⟨_, h⟩ | h
    · rw [h]; exact hu.1 (.inl (t, i)) _ hi
    · exact hd.1 p e h
  · rcases old p e hp with ⟨rfl, h⟩ | h <;> rcases old q e' hq with ⟨rfl, h'⟩ | h'
    · exact (hpq rfl).elim
    · exact (lost q e' h' (by rw [hor, h])).elim
    · exact (lost p e h (by rw [← hor, h'])).elim
    · exact hd.2 p q e e' hpq h h' he hor

/-- A tree is taken out of a mailbox. -/
theorem Uniq.take {post : M → List (Nat × List O)} {n : Nat} (hu : Uniq J n (Berth.at own G post)) (t : T) (m : M) {v : Nat × List O} {l : List (Nat × List O)} (hm : post m = v :: l)
    (g : Nat) : Uniq J n (Berth.at own (setAt G t (G t ++ [(if own m then some g else none, v)])) (setAt post m l)) := by
  have old : ∀ p e, Berth.at own (setAt G t (G t ++ [(if own m then some g else none, v)])) (setAt post m l) p = some e →
      (p = .inl (t, (G t).length) ∧ e = (if own m then some g else none, v)) ∨ ∃ q, q ≠ .inr (m, 0) ∧ Berth.at own G post q = some e ∧ (∀ x, p = .inl x → q = p) ∧
        ∀ a b, p = .inr (a, b) → q = .inr (a, if a = m then b + 1 else b) := fun p e hp => by
    rcases p with ⟨u, j⟩ | ⟨m', j⟩
    · rw [at_inl] at hp
      by_cases h : u = t
      · subst h
        rw [if_pos rfl] at hp
        by_cases hj : j = (G u).length
        · rw [hj, List.getElem?_append_right (Nat.le_refl _), Nat.sub_self] at hp
          cases hp
          exact .inl ⟨by rw [hj], rfl⟩
        · by_cases hj' : j < (G u).length
          · rw [List.getElem?_append_left hj'] at hp
            exact .inr ⟨.inl (u, j), fun k => (by cases k), hp, fun _ _ => rfl, fun _ _ k => by cases k⟩
          · rw [List.getElem?_append_right (by omega), List.getElem?_eq_none (by simp; omega)] at hp
            cases hp
      · rw [if_neg h] at hp
        exact .inr ⟨.inl (u, j), fun k => (by cases k), hp, fun _ _ => rfl, fun _ _ k => by cases k⟩
    · rw [at_inr] at hp
      by_cases h : m' = m
      · subst h
        rw [if_pos rfl] at hp
        refine .inr ⟨.inr (m', j + 1), fun k => (by cases k), ?_, fun _ k => (by cases k), fun a b k => ?_⟩
        · simp only [Berth.at]
          rw [hm, List.getElem?_cons_succ]
          exact hp
        · cases k; rw [if_pos rfl]
      · rw [if_neg h] at hp
        refine .inr ⟨.inr (m', j), fun k => (by cases k; exact h rfl), hp, fun _ k => (by cases k), fun a b k => ?_⟩
        cases k; rw [if_neg h]
  have first : Berth.at own G post (.inr (m, 0) : Berth T M) = some (if own m then some 0 else none, v) := by simp [Berth.at, hm]
  refine ⟨fun p e hp => ?_, fun p q e e' hpq hp hq he hor => ?_⟩
  · rcases old p e hp with ⟨_, rfl⟩ | ⟨q, _, h, _⟩
    · have := hu.1 (.inr (m, 0)) _ first
      exact this
    · exact hu.1 q e h
  · rcases old p e hp with ⟨rfl, rfl⟩ | ⟨p', p1, p2, p3, p4⟩ <;> rcases old q e' hq with ⟨rfl, rfl⟩ | ⟨q', q1, q2, q3, q4⟩
    · exact (hpq rfl).elim
    · have ho : own m = true := by
        cases ho : own m with
        | true => rfl
        | false => rw [ho] at he; exact (he rfl).elim
      have := (hu.2 (.inr (m, 0)) q' _ e' (fun k => q1 k.symm) first q2 (by rw [ho]; simp) hor).1
      exact this.elim
    · have := (hu.2 p' (.inr (m, 0)) e _ p1 p2 first he hor).1
      rcases p' with _ | _ <;> exact this.elim
    · have hne : p' ≠ q' := fun k => hpq (by
        rcases p with x | ⟨a, b⟩ <;> rcases q with y | ⟨a', b'⟩
        · rw [← p3 x rfl, ← q3 y rfl, k]
        · have := p3 x rfl
          rw [this, q4 a' b' rfl] at k; cases k
        · have := q3 y rfl
          rw [this, p4 a b rfl] at k; cases k
        · rw [p4 a b rfl, q4 a' b' rfl] at k
          simp only [Sum.inr.injEq, Prod.mk.injEq] at k
          obtain ⟨rfl, k⟩ := k
          by_cases h1 : a = m <;> simp [h1] at k <;> rw [k])
      have := hu.2 p' q' e e' hne p2 q2 he hor
      rcases p with x | ⟨a, b⟩ <;> rcases q with y | ⟨a', b'⟩
      · rw [p3 x rfl, q3 y rfl] at this; exact this
      · rw [p3 x rfl, q4 a' b' rfl] at this; exact this.1.elim
      · rw [p4 a b rfl] at this; exact this.1.elim
      · rw [p4 a b rfl] at this; exact this.1.elim

omit [DecidableEq M] in
/-- A tree is derived. -/
theorem Uniq.cow {post : M → List (Nat × List O)} {n : Nat} (hu : Uniq J n (Berth.at own G post)) (t : T) (i : Nat) {f : Option Nat} {v : Nat × List O} (hi : (G t)[i]? = some (f, v)) {o : O}
    (hJ : J (o :: v.2)) : Uniq J n (Berth.at own (setAt G t (G t ++ [(f, v.1, o :: v.2)])) post) := by
  have old : ∀ p e, Berth.at own (setAt G t (G t ++ [(f, v.1, o :: v.2)])) post p = some e → (p = .inl (t, (G t).length) ∧ e = (f, v.1, o :: v.2)) ∨ Berth.at own G post p = some e := fun p e hp => by
    rcases p with ⟨u, j⟩ | ⟨m', j⟩
    · rw [at_inl] at hp
      by_cases h : u = t
      · subst h
        rw [if_pos rfl] at hp
        by_cases hj : j = (G u).length
        · rw [hj, List.getElem?_append_right (Nat.le_refl _), Nat.sub_self] at hp
          cases hp
          exact .inl ⟨by rw [hj], rfl⟩
        · by_cases hj' : j < (G u).length
          · rw [List.getElem?_append_left hj'] at hp
            exact .inr hp
          · rw [List.getElem?_append_right (by omega), List.getElem?_eq_none (by simp; omega)] at hp
            cases hp
      · rw [if_neg h] at hp
        exact .inr hp
    · exact .inr hp
  refine ⟨fun p e hp => ?_, fun p q e e' hpq hp hq he hor => ?_⟩
  · rcases old p e hp with ⟨_, rfl⟩ | h
    · exact ⟨hJ, (hu.1 (.inl (t, i)) _ hi).2⟩
    · exact hu.1 p e h
  · rcases old p e hp with ⟨rfl, rfl⟩ | h <;> rcases old q e' hq with ⟨rfl, rfl⟩ | h'
    · exact (hpq rfl).elim
    · by_cases hqi : q = .inl (t, i)
      · rw [hqi] at h' ⊢
        rw [show e' = (f, v) from Option.some.inj (h'.symm.trans hi)]
        exact ⟨rfl, rfl⟩
      · have := hu.2 (.inl (t, i)) q _ e' (fun k => hqi k.symm) hi h' he hor
        rcases q with ⟨u, j⟩ | _
        · exact this
        · exact this.1.elim
    · by_cases hpi : p = .inl (t, i)
      · rw [hpi] at h ⊢
        rw [show e = (f, v) from Option.some.inj (h.symm.trans hi)]
        exact ⟨rfl, rfl⟩
      · have := hu.2 p (.inl (t, i)) e _ hpi h hi he hor
        rcases p with ⟨u, j⟩ | _
        · exact this
        · exact this.1.elim
    · exact hu.2 p q e e' hpq h h' he hor

omit [DecidableEq M] in
/-- A tree is changed in place. -/
theorem Uniq.inp {post : M → List (Nat × List O)} {n : Nat} (hu : Uniq J n (Berth.at own G post)) (t : T) (i : Nat) {f : Option Nat} {v : Nat × List O} (hi : (G t)[i]? = some (f, v)) {o : O}
    (hJ : J (o :: v.2)) : Uniq J n (Berth.at own (setAt G t ((G t).set i (f, v.1, o :: v.2))) post) := by
  have old : ∀ p e, Berth.at own (setAt G t ((G t).set i (f, v.1, o :: v.2))) post p = some e → ∃ e', Berth.at own G post p = some e' ∧ e.2.1 = e'.2.1 ∧ e.1 = e'.1 ∧ (e.2.2 = e'.2.2 ∨ J e.2.2) :=
    fun p e hp => by
    rcases p with ⟨u, j⟩ | ⟨m', j⟩
    · rw [at_inl] at hp
      by_cases h : u = t
      · subst h
        rw [if_pos rfl, List.getElem?_set] at hp
        by_cases hj2 : i = j
        · subst hj2
          rw [if_pos rfl] at hp
          split at hp
          · cases hp
            exact ⟨(f, v), hi, rfl, rfl, .inr hJ⟩
          · cases hp
        · rw [if_neg hj2] at hp
          exact ⟨_, hp, rfl, rfl, .inl rfl⟩
      · rw [if_neg h] at hp
        exact ⟨_, hp, rfl, rfl, .inl rfl⟩
    · exact ⟨_, hp, rfl, rfl, .inl rfl⟩
  refine hu.move id (fun p e hp => ?_) (fun p q e e' f f' hpq hp hq he hf hf' hk => ?_)
  · obtain ⟨e', h1, h2, h3, h4⟩ := old p e hp
    exact ⟨e', h1, h2, fun h => h3 ▸ h, h4⟩
  · obtain ⟨x, h1, _, h3, _⟩ := old p e hp
    obtain ⟨x', h1', _, h3', _⟩ := old q e' hq
    rcases hk with hk | ⟨hk, hk'⟩
    · exact (hpq hk).elim
    · refine ⟨hk, ?_⟩
      rw [h3, h3', ← show f = x from Option.some.inj (hf.symm.trans h1), ← show f' = x' from Option.some.inj (hf'.symm.trans h1'), hk']

omit [DecidableEq M] in
/-- A tree is started. -/
theorem Uniq.fresh {post : M → List (Nat × List O)} {n : Nat} (hu : Uniq J n (Berth.at own G post)) (t : T) (h0 : J []) (g : Nat) :
    Uniq J (n + 1) (Berth.at own (setAt G t (G t ++ [(some g, n, [])])) post) := by
  have old : ∀ p e, Berth.at own (setAt G t (G t ++ [(some g, n, [])])) post p = some e → (p = .inl (t, (G t).length) ∧ e = (some g, n, [])) ∨ Berth.at own G post p = some e := fun p e hp => by
    rcases p with ⟨u, j⟩ | ⟨m', j⟩
    · rw [at_inl] at hp
      by_cases h : u = t
      · subst h
        rw [if_pos rfl] at hp
        by_cases hj : j = (G u).length
        · rw [hj, List.getElem?_append_right (Nat.le_refl _), Nat.sub_self] at hp
          cases hp
          exact .inl ⟨by rw [hj], rfl⟩
        · by_cases hj' : j < (G u).length
          · rw [List.getElem?_append_left hj'] at hp
            exact .inr hp
          · rw [List.getElem?_append_right (by omega), List.getElem?_eq_none (by simp; omega)] at hp
            cases hp
      · rw [if_neg h] at hp
        exact .inr hp
    · exact .inr hp
  refine ⟨fun p e hp => ?_, fun p q e e' hpq hp hq he hor => ?_⟩
  · rcases old p e hp with ⟨_, rfl⟩ | h
    · exact ⟨h0, Nat.lt_succ_self n⟩
    · have := hu.1 p e h
      exact ⟨this.1, by omega⟩
  · rcases old p e hp with ⟨rfl, rfl⟩ | h <;> rcases old q e' hq with ⟨rfl, rfl⟩ | h'
    · exact (hpq rfl).elim
    · have := (hu.1 q e' h').2
      have hor : e'.2.1 = n := hor
      omega
    · have := (hu.1 p e h).2
      have hor : n = e.2.1 := hor
      omega
    · exact hu.2 p q e e' hpq h h' he hor

/-! ## Every turn -/

variable {Z : I.Blind} {AR : (Addr → Addr → Prop) → A → A → Prop} {P : K → List O → A → Prop} {n : Nat} {E : T → List (Item R O)} {B : M → List (Item R O)} {N : T → Addr → Prop}
  {Rd : K → R → Prog D A}

omit [DecidableEq T] [DecidableEq M] in
theorem Owned.tree_at (ho : Owned I J own w G) (hi : RInv Z AR P n w E B N) {t : T} {rs : List R} (hrs : (w.gor t).roots = rs) {i : Nat} {r : R} (hr : rs[i]? = some r) :
    ∃ f v, (G t)[i]? = some (f, v) ∧ (w.held t)[i]? = some v := by
  have hl : rs.length = (G t).length := by
    rw [← hrs, hi.roots t, List.length_map, ← List.length_map (as := E t) (f := fun e => (e.org, e.ops)), ← hi.held t, ho.held t, List.length_map]
  have hlt := (List.getElem?_eq_some_iff.1 hr).1
  rw [hl] at hlt
  refine ⟨(G t)[i].1, (G t)[i].2, List.getElem?_eq_getElem hlt, ?_⟩
  rw [ho.held, List.getElem?_map, List.getElem?_eq_getElem hlt]; rfl

theorem Owned.take (ho : Owned I J own w G) (hi : RInv Z AR P n w E B N) {t : T} {rs : List R} {m : M} {r : R} {l : List R} (hm : w.mail m = r :: l) {k : Errand O K A M}
    (hk : ∃ g, k.Owns I J own ((G t).map (·.1) ++ [if own m then some g else none])) : ∃ G', Owned I J own (w.take t rs m r k) G' := by
  cases hp : w.post m with
  | nil =>
    have h1 := hi.mail m
    have h2 := hi.post m
    rw [hp] at h2
    rw [List.map_eq_nil_iff.1 h2.symm, hm] at h1
    cases h1
  | cons v l' =>
    obtain ⟨g, hk⟩ := hk
    refine ho.turn (t := t) (G t ++ [(if own m then some g else none, v)]) (fun u hu => by simp [Relay.take, Relay.go, setAt, hu]) (fun u => ?_) ?_ (fun rs' e he => ?_) (fun p rs' x hx => ?_)
    · simp only [Relay.take, setAt, hp]
      by_cases h : u = t
      · rw [if_pos h, if_pos h, ho.held t]; simp
      · rw [if_neg h, if_neg h]
    · have := ho.uniq.take t m hp g
      simp only [Relay.take, Relay.go, hp, List.tail_cons]
      exact this
    · simp only [Relay.take, Relay.go, setAt, if_pos] at he
      cases he
      simpa using hk
    · simp only [Relay.take, Relay.go, setAt, if_pos] at hx
      cases hx

omit [DecidableEq M] in
theorem setAt_setAt {X Y : Type} [DecidableEq X] (f : X → Y) (x : X) (y z : Y) : setAt (setAt f x y) x z = setAt f x z := by
  funext u
  simp only [setAt]
  by_cases h : u = x
  · rw [if_pos h, if_pos h]
  · rw [if_neg h, if_neg h, if_neg h]

omit [DecidableEq T] [DecidableEq M] in
theorem shareOut_out {fl : List (Option Nat)} {i : Nat} (h : fl.length ≤ i) : shareOut fl i = fl := by
  rw [shareOut, List.getElem?_eq_none h]
  simp

omit [DecidableEq T] [DecidableEq M] in
theorem share_snd (f : Option Nat) (gs : List (Option Nat × Nat × List O)) : (gs.map fun e => if f = e.1 then (none, e.2) else e).map (·.2) = gs.map (·.2) := by
  rw [List.map_map]
  refine List.map_congr_left fun e _ => ?_
  by_cases h : f = e.1 <;> simp [h]

omit [DecidableEq T] [DecidableEq M] in
theorem share_fst {f : Option Nat} {v : Nat × List O} {gs : List (Option Nat × Nat × List O)} {i : Nat} (h : gs[i]? = some (f, v)) :
    (gs.map fun e => if f = e.1 then (none, e.2) else e).map (·.1) = shareOut (gs.map (·.1)) i := by
  rw [shareOut, List.map_map, List.map_map]
  refine List.map_congr_left fun e _ => ?_
  rw [List.getElem?_map, h]
  by_cases h : f = e.1 <;> simp [h]

theorem Owned.act (ho : Owned I J own w G) (hi : RInv Z AR P n w E B N) {t : T} {rs : List R} {e : Errand O K A M} (hd : w.gor t = .idle rs e) :
    ∃ G', Owned I J own (w.act I Rd t rs e) G' := by
  have hO := ho.idle t rs e hd
  have hrs : (w.gor t).roots = rs := by rw [hd]; rfl
  have hlen : rs.length = ((G t).map (·.1)).length := by
    rw [← hrs, hi.roots t, List.length_map, ← List.length_map (as := E t) (f := fun e => (e.org, e.ops)), ← hi.held t, ho.held t, List.length_map, List.length_map]
  have idle : ∀ k : Errand O K A M, k.Owns I J own ((G t).map (·.1)) → ∃ G', Owned I J own (w.go t (.idle rs k)) G' := fun k hk =>
    ho.stay (t := t) (fun u hu => by simp [Relay.go, setAt, hu]) rfl rfl rfl (fun rs' e he => by simp only [Relay.go, setAt, if_pos] at he; cases he; exact hk)
      (fun p rs' x hx => by simp only [Relay.go, setAt, if_pos] at hx; cases hx)
  have busy : ∀ p (x : What O K A M), x.Owns I J own ((G t).map (·.1)) → ∃ G', Owned I J own (w.go t (.busy p rs x)) G' := fun p x hk =>
    ho.stay (t := t) (fun u hu => by simp [Relay.go, setAt, hu]) rfl rfl rfl (fun rs' e he => by simp only [Relay.go, setAt, if_pos] at he; cases he)
      (fun p rs' x hx => by simp only [Relay.go, setAt, if_pos] at hx; cases hx; exact hk)
  have out : ∀ {i : Nat}, rs[i]? = none → ((G t).map (·.1)).length ≤ i := fun h => by rw [← hlen]; exact List.getElem?_eq_none_iff.1 h
  cases e with
  | done => exact ⟨G, ho⟩
  | call op k =>
    cases op with
    | fresh => exact busy _ _ hO
    | cow i o =>
      simp only [Relay.act]
      cases hr : rs[i]? with
      | none =>
        refine idle k ?_
        have := hO.2
        rw [List.getElem?_eq_none (out hr)] at this
        simpa using this
      | some r => exact busy _ _ hO
    | inp i o =>
      simp only [Relay.act]
      cases hr : rs[i]? with
      | none => exact idle k hO.2.2
      | some r => exact busy _ _ hO
    | drop i =>
      refine ho.turn (t := t) ((G t).eraseIdx i) (fun u hu => by simp [Relay.act, Relay.go, setAt, hu]) (fun u => ?_) (ho.uniq.drop t i) (fun rs' e he => ?_) (fun p rs' x hx => ?_)
      · simp only [Relay.act, setAt]
        by_cases h : u = t
        · rw [if_pos h, if_pos h, ho.held t, map_eraseIdx']
        · rw [if_neg h, if_neg h]
      · simp only [Relay.act, Relay.go, setAt, if_pos] at he
        cases he
        rw [← map_eraseIdx']; exact hO
      · simp only [Relay.act, Relay.go, setAt, if_pos] at hx
        cases hx
  | ask i q k =>
    simp only [Relay.act]
    cases hr : rs[i]? with
    | none => exact idle _ (hO _)
    | some r => exact busy _ _ fun a => hO _
  | send i m k =>
    simp only [Relay.act]
    cases hr : rs[i]? with
    | none =>
      refine idle k ?_
      have := hO.2
      rw [shareOut_out (out hr)] at this
      exact this
    | some r =>
      obtain ⟨f, v, h1, h2⟩ := ho.tree_at hi hrs hr
      refine ho.turn (t := t) ((G t).map fun e => if f = e.1 then (none, e.2) else e) (fun u hu => by simp [Relay.go, setAt, hu]) (fun u => ?_) ?_ (fun rs' e he => ?_) (fun p rs' x hx => ?_)
      · by_cases h : u = t
        · rw [if_pos h, share_snd, ← ho.held, h]; rfl
        · rw [if_neg h]; rfl
      · have := (ho.uniq.share t f).send t i m hO.1 (v := v) (by simp [setAt, h1])
        simp only [Relay.go, h2, Option.toList_some]
        exact this
      · simp only [Relay.go, setAt, if_pos] at he
        cases he
        rw [share_fst h1]; exact hO.2
      · simp only [Relay.go, setAt, if_pos] at hx
        cases hx
  | give i m k =>
    simp only [Relay.act]
    cases hr : rs[i]? with
    | none =>
      refine idle k ?_
      rcases hO with ⟨_, _, hO⟩ | ⟨_, hO⟩
      · rw [List.eraseIdx_of_length_le (out hr)] at hO
        exact hO
      · rw [shareOut_out (out hr), List.eraseIdx_of_length_le (out hr)] at hO
        exact hO
    | some r =>
      obtain ⟨f, v, h1, h2⟩ := ho.tree_at hi hrs hr
      rcases hO with ⟨o1, o2, hO⟩ | ⟨o1, hO⟩
      · refine ho.turn (t := t) ((G t).eraseIdx i) (fun u hu => by simp [Relay.go, setAt, hu]) (fun u => ?_) ?_ (fun rs' e he => ?_) (fun p rs' x hx => ?_)
        · simp only [setAt]
          by_cases h : u = t
          · rw [if_pos h, if_pos h, ho.held t, map_eraseIdx']
          · rw [if_neg h, if_neg h]
        · have := ho.uniq.give t i m o1 h1 o2
          simp only [Relay.go, h2, Option.toList_some]
          exact this
        · simp only [Relay.go, setAt, if_pos] at he
          cases he
          rw [← map_eraseIdx']; exact hO
        · simp only [Relay.go, setAt, if_pos] at hx
          cases hx
      · refine ho.turn (t := t) (((G t).map fun e => if f = e.1 then (none, e.2) else e).eraseIdx i) (fun u hu => by simp [Relay.go, setAt, hu]) (fun u => ?_) ?_ (fun rs' e he => ?_)
          (fun p rs' x hx => ?_)
        · simp only [setAt]
          by_cases h : u = t
          · rw [if_pos h, if_pos h, ← map_eraseIdx', share_snd, ho.held t]
          · rw [if_neg h, if_neg h]
        · have := ((ho.uniq.share t f).send t i m o1 (v := v) (by simp [setAt, h1])).drop t i
          simp only [Relay.go, h2, Option.toList_some]
          rw [setAt_setAt] at this
          simp only [setAt, if_pos] at this
          exact this
        · simp only [Relay.go, setAt, if_pos] at he
          cases he
          rw [← map_eraseIdx', share_fst h1]; exact hO
        · simp only [Relay.go, setAt, if_pos] at hx
          cases hx
  | recv m k =>
    simp only [Relay.act]
    cases hm : w.mail m with
    | nil => exact ⟨G, ho⟩
    | cons r l => exact ho.take hi hm hO
  | poll m k =>
    simp only [Relay.act]
    cases hm : w.mail m with
    | nil => exact idle _ hO.1
    | cons r l => exact ho.take hi hm hO.2

omit [DecidableEq M] in
theorem Owned.finish (h0 : J []) (ho : Owned I J own w G) (hi : RInv Z AR P n w E B N) {t : T} {y : R ⊕ A} {rs : List R} {x : What O K A M} (hb : w.gor t = .busy (.ret y) rs x) :
    ∃ G', Owned I J own (w.finish t rs y x) G' := by
  have hO := ho.busy t _ rs x hb
  have hrs : (w.gor t).roots = rs := by rw [hb]; rfl
  obtain ⟨F, ip, Q, hT, _⟩ := hi.task t _ rs x hb
  cases y with
  | inl r =>
    cases x with
    | ask i q k => exact ⟨G, ho⟩
    | call op k =>
      -- the tree called
      have tree : ∀ {i : Nat} {e : Item R O}, (E t)[i]? = some e → ∃ f v, (G t)[i]? = some (f, v) ∧ (w.held t)[i]? = some v := fun {i e} he =>
        ho.tree_at hi hrs (r := e.root) (by rw [← hrs, hi.roots t, List.getElem?_map, he]; rfl)
      cases op with
      | fresh =>
        obtain ⟨g, hO⟩ := hO
        refine ho.turn (t := t) (G t ++ [(some g, w.next, [])]) (fun u hu => by simp [Relay.finish, Relay.go, setAt, hu]) (fun u => ?_) (ho.uniq.fresh t h0 g) (fun rs' e he => ?_) (fun p rs' x hx => ?_)
        · simp only [Relay.finish, setAt, Book.step]
          by_cases h : u = t
          · rw [if_pos h, if_pos h, ho.held t]; simp
          · rw [if_neg h, if_neg h]
        · simp only [Relay.finish, Relay.go, setAt, if_pos] at he
          cases he
          simpa using hO
        · simp only [Relay.finish, Relay.go, setAt, if_pos] at hx
          cases hx
      | cow i o =>
        obtain ⟨e, he, _⟩ := hT
        obtain ⟨f, v, h1, h2⟩ := tree he
        have hJ := (hO.1 v.2 (ho.uniq.1 (.inl (t, i)) _ h1).1).2
        refine ho.turn (t := t) (G t ++ [(f, v.1, o :: v.2)]) (fun u hu => by simp [Relay.finish, Relay.go, setAt, hu]) (fun u => ?_) ?_ (fun rs' e he => ?_) (fun p rs' x hx => ?_)
        · simp only [Relay.finish, setAt, Book.step, h2]
          by_cases h : u = t
          · rw [if_pos h, if_pos h, ho.held t]; simp
          · rw [if_neg h, if_neg h]
        · have := ho.uniq.cow t i h1 hJ
          simp only [Relay.finish, Relay.go, Book.step, h2]
          exact this
        · simp only [Relay.finish, Relay.go, setAt, if_pos] at he
          cases he
          have := hO.2
          rw [List.getElem?_map, h1] at this
          simpa using this
        · simp only [Relay.finish, Relay.go, setAt, if_pos] at hx
          cases hx
      | inp i o =>
        obtain ⟨e, he, _⟩ := hT
        obtain ⟨f, v, h1, h2⟩ := tree he
        have hJ := (hO.1 v.2 (ho.uniq.1 (.inl (t, i)) _ h1).1).2
        refine ho.turn (t := t) ((G t).set i (f, v.1, o :: v.2)) (fun u hu => by simp [Relay.finish, Relay.go, setAt, hu]) (fun u => ?_) ?_ (fun rs' e he => ?_) (fun p rs' x hx => ?_)
        · simp only [Relay.finish, setAt, Book.step, h2]
          by_cases h : u = t
          · rw [if_pos h, if_pos h, List.map_set, ← ho.held]
          · rw [if_neg h, if_neg h]
        · have := ho.uniq.inp t i h1 hJ
          simp only [Relay.finish, Relay.go, Book.step, h2]
          exact this
        · simp only [Relay.finish, Relay.go, setAt, if_pos] at he
          cases he
          have h3 : ((G t).map (·.1)).set i f = (G t).map (·.1) := by
            refine List.ext_getElem? fun j => ?_
            rw [List.getElem?_set]
            by_cases hj : i = j
            · subst hj
              rw [if_pos rfl, if_pos (by simpa using (List.getElem?_eq_some_iff.1 h1).1), List.getElem?_map, h1]; rfl
            · rw [if_neg hj]
          rw [List.map_set, h3]; exact hO.2.2
        · simp only [Relay.finish, Relay.go, setAt, if_pos] at hx
          cases hx
      | drop i => exact hT.elim
  | inr a =>
    cases x with
    | call op k => exact ⟨G, ho⟩
    | ask i q k =>
      exact ho.stay (t := t) (fun u hu => by simp [Relay.finish, Relay.go, setAt, hu]) rfl rfl rfl (fun rs' e he => by simp only [Relay.finish, Relay.go, setAt, if_pos] at he; cases he; exact hO a)
        (fun p rs' x hx => by simp only [Relay.finish, Relay.go, setAt, if_pos] at hx; cases hx)

theorem Owned.step (h0 : J []) (ho : Owned I J own w G) (hi : RInv Z AR P n w E B N) (t : T) : ∃ G', Owned I J own (w.step I Rd t) G' := by
  cases hg : w.gor t with
  | idle rs e =>
    have : w.step I Rd t = w.act I Rd t rs e := by simp only [Relay.step, hg]
    rw [this]
    exact ho.act hi hg
  | busy p rs x =>
    cases hs : p.step w.heap with
    | some ph =>
      obtain ⟨p', h'⟩ := ph
      rw [Relay.step_access hg hs]
      exact ho.stay (t := t) (fun u hu => by simp [Relay.go, setAt, hu]) rfl rfl rfl (fun rs' e he => by simp only [Relay.go, setAt, if_pos] at he; cases he)
        (fun p rs' x hx => by simp only [Relay.go, setAt, if_pos] at hx; cases hx; exact ho.busy t _ _ _ hg)
    | none =>
      obtain ⟨F, ip, Q, _, hA⟩ := hi.task t p rs x hg
      rcases step_done hs with ⟨y, rfl⟩ | ⟨e, rfl⟩
      · have : w.step I Rd t = w.finish t rs y x := by simp only [Relay.step, hg]
        rw [this]
        exact ho.finish h0 hi hg
      · exact (hA.fine e rfl).elim

omit [DecidableEq T] [DecidableEq M] in
theorem owned_start (job : T → Errand O K A M) (hj : ∀ t, (job t).Owns I J own []) : Owned I J own (Relay.start job : Relay D O R K A M T) fun _ => [] := by
  have none : ∀ (p : Berth T M) e, Berth.at (O := O) own (fun _ => []) (fun _ => []) p ≠ some e := by
    rintro (⟨t, i⟩ | ⟨m, j⟩) e h <;> simp [Berth.at] at h
  refine ⟨fun _ => rfl, ⟨fun p e h => (none p e h).elim, fun p q e e' _ h => (none p e h).elim⟩, fun t rs e h => ?_, fun t p rs x h => ?_⟩
  · cases h; exact hj t
  · cases h

/-- If every goroutine keeps to the rule, every schedule is legal. -/
theorem relay_legal {n0 : Nat} (hI : I.Lawful n0) (hRd : ∀ ρ, One ρ → ∀ k r r', Z.rootR ρ r r' → (Rd k r).Sim ρ (Z.cellR ρ) (AR ρ) (Rd k r'))
    (hP : ∀ ρ k l x y, AR ρ x y → P k l y → P k l x) (hR : ∀ k h r l F, l.length ≤ n0 → I.Obj h r l F → wp (fun _ => False) (Rd k r) (fun x h' => h' = h ∧ P k l x) h) (h0 : J [])
    (hi : RInv Z AR P n w E B N) (ho : Owned I J own w G) (sched : List T) (hn : n + sched.length ≤ n0) : w.LegalAll I Rd sched := by
  induction sched generalizing w n E B N G with
  | nil => trivial
  | cons t ts ih =>
    simp only [List.length_cons] at hn
    obtain ⟨E', B', N', h⟩ := hi.step hI (by omega) hRd hP hR t (ho.legal t)
    obtain ⟨G', h'⟩ := ho.step h0 hi t
    exact ⟨ho.legal t, ih h h' (by omega)⟩

/-- If every goroutine keeps to the rule, all is fine at every time of every schedule. -/
theorem relay_owned {n0 : Nat} (hI : I.Lawful n0) (Z : I.Blind) (Rd : K → R → Prog D A) (P : K → List O → A → Prop) (AR : (Addr → Addr → Prop) → A → A → Prop)
    (hRd : ∀ ρ, One ρ → ∀ k r r', Z.rootR ρ r r' → (Rd k r).Sim ρ (Z.cellR ρ) (AR ρ) (Rd k r')) (hP : ∀ ρ k l x y, AR ρ x y → P k l y → P k l x)
    (hR : ∀ k h r l F, l.length ≤ n0 → I.Obj h r l F → wp (fun _ => False) (Rd k r) (fun x h' => h' = h ∧ P k l x) h) (J : List O → Prop) (h0 : J []) (own : M → Bool)
    (job : T → Errand O K A M) (hj : ∀ t, (job t).Owns I J own []) (sched : List T) (hn : sched.length ≤ n0) :
    (Relay.start job : Relay D O R K A M T).LegalAll I Rd sched ∧ ((Relay.start job : Relay D O R K A M T).exec I Rd sched).Fine I Rd P :=
  have hl := relay_legal hI hRd hP hR h0 (rinv_start Z AR P job) (owned_start job hj) sched (by omega)
  ⟨hl, relay_fine hI Z Rd P AR hRd hP hR job sched hn hl⟩

end

end Verif.Heap
