import Verif.DomHeap.Paths
import Verif.Props.SharedStrtree
import Verif.Props.Quarantine

/-!
# Property theorems for values found in domaintrees that share nodes (C101)

The histories are those of C100 with no condition on the in-place calls: InplaceInsert may be called on trees that share nodes with others, calls may panic and the caller
recover.  All that is asked is that names come from `MakeNameFromString`.  After such a history trees can lose and repeat domains, and their nodes can form cycles (C77, C99).
-/

namespace Verif.Props
open Verif Verif.Heap Verif.Domain Verif.DomTree Verif.DomHeap
variable {V : Type}

/-- The history has a call that returned and was given the domain `q` and the value `v` to store. -/
def StoredBy (ops : List (SOp (Op V) × Bool)) (q : List Bytes) (v : V) : Prop :=
  ∃ i o d, ((SOp.cow i o, true) ∈ ops ∨ (SOp.inp i o, true) ∈ ops) ∧ (o = .insert d v ∨ o = .inplace d v) ∧ Parsed d q

theorem fits_history {st : Bool} {f : Nat} {ops : List (SOp (Op V) × Bool)} (hn : ∀ i o b, (SOp.cow i o, b) ∈ ops ∨ (SOp.inp i o, b) ∈ ops → Named o)
    {s : OStore (DD V) Ptr} (he : OStore.init.execR (domImpl st f) ops = some s) : Fits (StoredBy ops) s :=
  fits_execR (fun i o b h => ⟨hn i o b (.inl h), fun hb _ _ ⟨d, h1, h2⟩ => ⟨i, o, d, .inl (hb ▸ h), h2, h1⟩⟩)
    (fun i o b h => ⟨hn i o b (.inr h), fun hb _ _ ⟨d, h1, h2⟩ => ⟨i, o, d, .inr (hb ▸ h), h2, h1⟩⟩) fits_init he

/-- C101: a Get that finds a value finds one a returned call stored under the name asked for or under an ancestor of it, other than the root domain. -/
theorem C101_get {st : Bool} {f g : Nat} {ops : List (SOp (Op V) × Bool)} (hn : ∀ i o b, (SOp.cow i o, b) ∈ ops ∨ (SOp.inp i o, b) ∈ ops → Named o)
    {s : OStore (DD V) Ptr} (he : OStore.init.execR (domImpl st f) ops = some s) {r : Ptr} (hr : r ∈ s.roots) {d : Name} {ls : List Bytes} (hd : Parsed d ls) {v : V}
    (hg : answer (GetP g r d) s.heap = some (some v)) : ∃ q, q ≠ [] ∧ q <+: ls ∧ StoredBy ops q v :=
  fits_get (fits_history hn he) hr hd hg

/-- C101, listing: every key Enumerate lists parses to a domain a returned call stored, with the value it is listed with. -/
theorem C101_enumerate {st : Bool} {f g : Nat} {ops : List (SOp (Op V) × Bool)} (hn : ∀ i o b, (SOp.cow i o, b) ∈ ops ∨ (SOp.inp i o, b) ∈ ops → Named o)
    {s : OStore (DD V) Ptr} (he : OStore.init.execR (domImpl st f) ops = some s) {r : Ptr} (hr : r ∈ s.roots) {xs : List (Bytes × V)}
    (hg : answer (EnumerateTreeP g r) s.heap = some xs) : ∀ key v, (key, v) ∈ xs → ∃ q, parseLabels key = some q ∧ StoredBy ops q v := by
  intro key v hm
  obtain ⟨q, h1, h2⟩ := fits_enumerate (fits_history hn he) hr hg (key, v) hm
  refine ⟨q, ?_, h2⟩
  obtain ⟨i, o, d, _, _, h3⟩ := h2
  obtain ⟨d', p1, p2⟩ := h3.reparse
  simp only at h1
  rw [h1, pathText_keyOf rfl h3.holds.short]
  simp [parseLabels, p1, p2]

/-! ## A history that meets the hypotheses -/

/-- Tree 0 with `b`, `c` and `www.c`; tree 1 derived from it with a new value for `b`; in-place calls on both; then a call that panics and is recovered from, a deletion and
an insertion below it. -/
def domDamaged : List (SOp (Op Nat) × Bool) :=
  [(.fresh, true), (.inp 0 (.inplace (nm "b") 1), true), (.inp 0 (.inplace (nm "c") 2), true), (.inp 0 (.inplace (nm "www.c") 8), true), (.cow 0 (.insert (nm "b") 3), true),
   (.inp 0 (.inplace (nm "d") 4), true), (.inp 1 (.inplace (nm "f") 5), true), (.inp 1 (.inplace (nm "e") 6), true), (.cow 0 (.insert (nm "f") 7), false),
   (.cow 1 (.delete (nm "b")), true), (.inp 0 (.inplace (nm "a.www.c") 9), true)]

example : ∀ i o b, (SOp.cow i o, b) ∈ domDamaged ∨ (SOp.inp i o, b) ∈ domDamaged → Named o := by
  intro i o b h
  simp only [domDamaged, List.mem_cons, Prod.mk.injEq, SOp.cow.injEq, SOp.inp.injEq, reduceCtorEq, List.not_mem_nil, false_and, or_false, false_or] at h
  rcases h with h | h
  · rcases h with h | h | h <;> obtain ⟨⟨_, rfl⟩, _⟩ := h
    · exact ⟨txt "b", by decide +kernel⟩
    · exact ⟨txt "f", by decide +kernel⟩
    · exact ⟨txt "b", by decide +kernel⟩
  · rcases h with h | h | h | h | h | h | h <;> obtain ⟨⟨_, rfl⟩, _⟩ := h
    · exact ⟨txt "b", by decide +kernel⟩
    · exact ⟨txt "c", by decide +kernel⟩
    · exact ⟨txt "www.c", by decide +kernel⟩
    · exact ⟨txt "d", by decide +kernel⟩
    · exact ⟨txt "f", by decide +kernel⟩
    · exact ⟨txt "e", by decide +kernel⟩
    · exact ⟨txt "a.www.c", by decide +kernel⟩

/-- C101 (what does not hold): after `domDamaged` tree 1 lists `b` twice, and tree 2, made from it by Delete of `b`, still finds `b`, with the older of the two values;
a name in tree 0 stored in place is found in the two other trees. -/
theorem C101_limits : (match OStore.init.execR (domImpl true 128) domDamaged with
    | .some s => s.roots.map fun t => (answer (EnumerateTreeP 128 t) s.heap, answer (GetP 128 t (nm "b")) s.heap, answer (GetP 128 t (nm "x.a.www.c")) s.heap)
    | .none => []) =
    [(some [(txt "b", 1), (txt "c", 2), (txt "www.c", 8), (txt "a.www.c", 9), (txt "d", 4), (txt "e", 6), (txt "f", 5)], some (some 1), some (some 9)),
     (some [(txt "b", 3), (txt "b", 1), (txt "c", 2), (txt "www.c", 8), (txt "a.www.c", 9), (txt "d", 4), (txt "e", 6), (txt "f", 5)], some (some 3), some (some 9)),
     (some [(txt "b", 1), (txt "c", 2), (txt "www.c", 8), (txt "a.www.c", 9), (txt "d", 4), (txt "e", 6), (txt "f", 5)], some (some 1), some (some 9))] := by
  decide +kernel

end Verif.Props
