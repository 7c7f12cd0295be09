import Verif.Strtree.AnyCmp
import Verif.Props.Strtree

/-!
# Property C73: strtree with a comparison function of any kind

`NewTreeWithCustomComparison` takes any function.  Nothing is assumed of `cmp` here: it need not be transitive,
antisymmetric or even find a key equal to itself.
-/

namespace Verif.Props
open Verif.Strtree
variable {V : Type} [Inhabited V]

/-- C73: every tree such calls produce is a red-black tree, whatever the comparison answers. -/
theorem C73_balanced {cmp : Bytes → Bytes → Int} {t0 : Option (Tree V)} (h0 : Start cmp t0) {ops : List (KOp Bytes V)}
    {t : Option (Tree V)} (h : run t0 ops = some t) : IsRedBlack RB.RD.red (root t) := by
  obtain ⟨r, h1, h2⟩ := run_like_any h0.like h
  rw [(like_ops h1).2.2.2.1]
  exact h2.isRedBlack

/-- C73: when Insert returns: the tree is empty, or the comparison finds the key equal to itself, or Get finds the key. -/
theorem C73_returns {cmp : Bytes → Bytes → Int} {t0 : Option (Tree V)} (h0 : Start cmp t0) {ops : List (KOp Bytes V)}
    {t : Option (Tree V)} (h : run t0 ops = some t) (k : Bytes) (v : V) :
    (∃ t', Insert t k v = some t') ↔ IsEmpty t = true ∨ cmp k k = 0 ∨ (Get t k).isSome = true := by
  obtain ⟨r, h1, h2⟩ := run_like_any h0.like h
  rw [(like_ops h1).2.2.1, (like_ops h1).1]
  by_cases hn : r = .nil
  · subst hn
    simp only [BTree.isNil, true_or, iff_true]
    obtain ⟨t', e, _⟩ := (like_ops h1).2.2.2.2.1 k v _ rfl
    exact ⟨t', e⟩
  · have hn' : r.isNil = false := by cases r <;> simp_all [BTree.isNil]
    simp only [hn', Bool.false_eq_true, false_or]
    rcases RB.insert_any (cmp := cmp) h2 hn k v with ⟨hk, r', e1, _⟩ | ⟨hk, e1, _⟩
    · obtain ⟨t', e, _⟩ := (like_ops h1).2.2.2.2.1 k v _ e1
      exact ⟨fun _ => hk, fun _ => ⟨t', e⟩⟩
    · refine ⟨fun ⟨t', e⟩ => ?_, fun h => absurd h hk⟩
      exfalso
      cases t with
      | none => exact hn h1.2
      | some t =>
        obtain ⟨rfl, rfl⟩ := h1
        simp [Strtree.Insert, e1] at e

/-- C73: otherwise it never returns and never panics: it is still running after every number of iterations, and the tree it
builds grows without bound. -/
theorem C73_forever {cmp : Bytes → Bytes → Int} {t0 : Option (Tree V)} (h0 : Start cmp t0) {ops : List (KOp Bytes V)}
    {t : Option (Tree V)} (h : run t0 ops = some t) (k : Bytes) (v : V)
    (hno : ¬ (IsEmpty t = true ∨ cmp k k = 0 ∨ (Get t k).isSome = true)) :
    (∀ n, ∃ size, Running t k v n size) ∧ ∀ N, ∃ n size, Running t k v n size ∧ N ≤ size := by
  obtain ⟨r, h1, h2⟩ := run_like_any h0.like h
  rw [(like_ops h1).2.2.1, (like_ops h1).1] at hno
  have hn : r ≠ .nil := by rintro rfl; simp [BTree.isNil] at hno
  have ha : ∀ n, InsertAfter t k v n = RB.insertAfter cmp r k v n := by
    intro n
    cases t with
    | none => exact absurd h1.2 hn
    | some t => obtain ⟨rfl, rfl⟩ := h1; rfl
  rcases RB.insert_any (cmp := cmp) h2 hn k v with ⟨hk, _⟩ | ⟨_, _, e2, e3⟩
  · exact absurd (.inr hk) hno
  · refine ⟨fun n => ?_, fun N => ?_⟩
    · obtain ⟨c, f, e⟩ := e2 n
      exact ⟨_, c, f, by rw [ha, e], rfl⟩
    · obtain ⟨n, c, f, e, e'⟩ := e3 N
      exact ⟨n, _, ⟨c, f, by rw [ha, e], rfl⟩, e'⟩

/-- C73: and when it returns, then after a number of iterations at most twice the height plus two. -/
theorem C73_iterations {cmp : Bytes → Bytes → Int} {t0 : Option (Tree V)} (h0 : Start cmp t0) {ops : List (KOp Bytes V)}
    {t t' : Option (Tree V)} (h : run t0 ops = some t) {k : Bytes} {v : V} (hi : Insert t k v = some t') :
    Returned t k v (2 * (root t).height + 2) t' := by
  obtain ⟨r, h1, h2⟩ := run_like_any h0.like h
  unfold Returned
  cases t with
  | none =>
    cases hi; rfl
  | some t =>
    obtain ⟨rfl, rfl⟩ := h1
    simp only [Strtree.Insert, Option.map_eq_some_iff] at hi
    obtain ⟨n, e, rfl⟩ := hi
    show RB.insertAfter t.compare t.root k v (2 * t.root.height + 2) = .done n
    by_cases hn : t.root = .nil
    · rw [hn] at e ⊢; cases e; rfl
    · rcases RB.insert_any (cmp := t.compare) h2 hn k v with ⟨_, r', e1, _, _, _, e2⟩ | ⟨_, e1, _⟩
      · rw [e1] at e; cases e; exact e2
      · rw [e1] at e; cases e

/-- C73: Get finds what was just inserted, however inconsistent the comparison is on other keys. -/
theorem C73_get {cmp : Bytes → Bytes → Int} {t0 : Option (Tree V)} (h0 : Start cmp t0) {ops : List (KOp Bytes V)}
    {t t' : Option (Tree V)} (h : run t0 ops = some t) {k : Bytes} {v : V} (hi : Insert t k v = some t')
    (hk : cmp k k = 0 ∨ (Get t k).isSome = true) : Get t' k = some v := by
  obtain ⟨r, h1, h2⟩ := run_like_any h0.like h
  rw [(like_ops h1).1] at hk
  by_cases hn : r = .nil
  · subst hn
    obtain ⟨t2, e, e2⟩ := (like_ops h1).2.2.2.2.1 k v _ rfl
    rw [hi] at e; cases e
    rw [(like_ops e2).1]
    simp [RB.get] at hk
    simp [RB.get, hk]
  · rcases RB.insert_any (cmp := cmp) h2 hn k v with ⟨_, r', e1, _, e2, _⟩ | ⟨hk', _⟩
    · obtain ⟨t2, e, e3⟩ := (like_ops h1).2.2.2.2.1 k v _ e1
      rw [hi] at e; cases e
      rw [(like_ops e3).1]; exact e2
    · exact absurd hk hk'

/-- C73: a key that Get did not find is added to the listing, and nothing else changes there. -/
theorem C73_added {cmp : Bytes → Bytes → Int} {t0 : Option (Tree V)} (h0 : Start cmp t0) {ops : List (KOp Bytes V)}
    {t t' : Option (Tree V)} (h : run t0 ops = some t) {k : Bytes} {v : V} (hi : Insert t k v = some t')
    (hk : Get t k = none) : ∃ xs ys, Enumerate t = xs ++ ys ∧ Enumerate t' = xs ++ (k, v) :: ys := by
  obtain ⟨r, h1, h2⟩ := run_like_any h0.like h
  rw [(like_ops h1).1] at hk
  by_cases hn : r = .nil
  · subst hn
    obtain ⟨t2, e, e2⟩ := (like_ops h1).2.2.2.2.1 k v _ rfl
    rw [hi] at e; cases e
    rw [(like_ops e2).2.1, (like_ops h1).2.1]
    exact ⟨[], [], rfl, rfl⟩
  · rcases RB.insert_any (cmp := cmp) h2 hn k v with ⟨_, r', e1, _, _, e2, _⟩ | ⟨_, e1, _⟩
    · obtain ⟨t2, e, e3⟩ := (like_ops h1).2.2.2.2.1 k v _ e1
      rw [hi] at e; cases e
      rw [(like_ops e3).2.1, (like_ops h1).2.1]; exact e2.none hk
    · exfalso
      cases t with
      | none => exact hn h1.2
      | some t => obtain ⟨rfl, rfl⟩ := h1; simp [Strtree.Insert, e1] at hi

/-- C73: a key that Get found keeps its place and its spelling; only its value changes. -/
theorem C73_replaced {cmp : Bytes → Bytes → Int} {t0 : Option (Tree V)} (h0 : Start cmp t0) {ops : List (KOp Bytes V)}
    {t t' : Option (Tree V)} (h : run t0 ops = some t) {k : Bytes} {v v0 : V} (hi : Insert t k v = some t')
    (hk : Get t k = some v0) : ∃ xs k0 ys, cmp k0 k = 0 ∧ Enumerate t = xs ++ (k0, v0) :: ys ∧ Enumerate t' = xs ++ (k0, v) :: ys := by
  obtain ⟨r, h1, h2⟩ := run_like_any h0.like h
  rw [(like_ops h1).1] at hk
  have hn : r ≠ .nil := by rintro rfl; cases hk
  rcases RB.insert_any (cmp := cmp) h2 hn k v with ⟨_, r', e1, _, _, e2, _⟩ | ⟨hk', _⟩
  · obtain ⟨t2, e, e3⟩ := (like_ops h1).2.2.2.2.1 k v _ e1
    rw [hi] at e; cases e
    rw [(like_ops e3).2.1, (like_ops h1).2.1]; exact e2.some v0 hk
  · exact absurd (.inr (by rw [hk]; rfl)) hk'

omit [Inhabited V] in
/-- C73: Delete always returns; its flag says whether Get finds the key; it takes out exactly one pair, with a key equal to the one given,
or leaves the listing as it is.  On any tree at all. -/
theorem C73_delete (r : RB.RTree Bytes V) (cmp : Bytes → Bytes → Int) (k : Bytes) :
    let t : Option (Tree V) := some ⟨r, cmp⟩
    (Delete t k).2 = (Get t k).isSome ∧
    ((Delete t k).2 = true → ∃ p ∈ Enumerate t, cmp p.1 k = 0 ∧ (p :: Enumerate (Delete t k).1).Perm (Enumerate t)) ∧
    ((Delete t k).2 = false → Enumerate (Delete t k).1 = Enumerate t) := by
  obtain ⟨h1, h2⟩ := RB.del_any cmp r k
  exact ⟨h1, h2.yes, h2.no⟩

/-! ## Cases -/

/-- "Greater than everything": finds no key equal to itself. -/
def never (_ _ : Bytes) : Int := -1

/-- Rock, paper, scissors by the first byte. -/
def rps (a b : Bytes) : Int :=
  if a = b then 0 else if (a.headD 0).toNat % 3 = ((b.headD 0).toNat + 1) % 3 then 1 else -1

-- the first insertion returns, the second does not
example : (run (NewTreeWithCustomComparison never) [.insert [1] (7 : Nat)]).map Enumerate = some [([1], 7)] := by decide +kernel
example : run (NewTreeWithCustomComparison never) [.insert [2] 8, .insert [1] (7 : Nat)] = none := by rfl
example : ∃ t, run (NewTreeWithCustomComparison never) [.insert [1] (7 : Nat)] = some t ∧
    (∀ n, ∃ size, Running t [2] 8 n size) ∧ ∀ N, ∃ n size, Running t [2] 8 n size ∧ N ≤ size := by
  refine ⟨_, rfl, C73_forever (cmp := never) (.inl rfl) (ops := [.insert [1] 7]) rfl [2] 8 ?_⟩
  decide +kernel

-- inserting the same key again does not return either: Get does not find it
example : run (NewTreeWithCustomComparison never) [.insert [1] 8, .insert [1] (7 : Nat)] = none := by rfl

-- a comparison that is not transitive: three keys in a cycle
example : rps [0] [1] < 0 ∧ rps [1] [2] < 0 ∧ rps [2] [0] < 0 := by decide +kernel
def cyc : List (KOp Bytes Nat) := [.insert [5] 6, .insert [4] 5, .insert [3] 4, .insert [2] 3, .insert [1] 2, .insert [0] 1]
example : (run (NewTreeWithCustomComparison rps) cyc).map Enumerate =
    some [([2], 3), ([5], 6), ([0], 1), ([3], 4), ([1], 2), ([4], 5)] := by decide +kernel
example : (run (NewTreeWithCustomComparison rps) cyc).map (fun t => ((Delete t [0]).2, Enumerate (Delete t [0]).1)) =
    some (true, [([2], 3), ([5], 6), ([3], 4), ([1], 2), ([4], 5)]) := by decide +kernel
example : ∃ t, run (NewTreeWithCustomComparison rps) cyc = some t ∧ IsRedBlack RB.RD.red (root t) :=
  ⟨_, rfl, C73_balanced (cmp := rps) (.inl rfl) (ops := cyc) rfl⟩
-- replacing and adding
example : ((run (NewTreeWithCustomComparison rps) cyc).bind fun t => Insert t [3] 40).map Enumerate =
    some [([2], 3), ([5], 6), ([0], 1), ([3], 40), ([1], 2), ([4], 5)] := by decide +kernel
example : ((run (NewTreeWithCustomComparison rps) cyc).bind fun t => Insert t [9] 10).map (fun t => ((Enumerate t).length, Get t [9])) =
    some (7, some 10) := by decide +kernel

end Verif.Props
