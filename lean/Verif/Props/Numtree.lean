import Verif.Num.Misc

/-!
# Property theorems for numtree (C01-C04, C07-C10)

Generic over the key width: `LawfulKeySize 32` (Node32, iptree*/node32.go) and `LawfulKeySize 64` (Node64,
iptree*/node64.go, node64s.go) are proved instances.  Histories are lists of calls, newest first.
-/

namespace Verif.Props
open Verif Verif.Num
variable {w : Nat} {V : Type} [LawfulKeySize w] [Inhabited V]

/-- A sample history used to show the statements are not vacuous: two nested prefixes and a sibling, with one
deletion.  Low bits of keys are deliberately dirty. -/
def sample32 : List (NumOp 32 Nat) :=
  [.insert 0x0A010203#32 16 7, .delete 0x0B000000#32 8, .insert 0x0B010000#32 16 5, .insert 0x0A0000FF#32 8 3,
   .insert 0xC0000000#32 99 4]

/-- The same with 64-bit keys. -/
def sample64 : List (NumOp 64 Nat) :=
  [.insert 0x20010db800000001#64 32 7, .delete 0x20020000#64 (-1), .insert 0xfe80000000000000#64 10 1]

/-! ## C01 -/

/-- C01: ExactMatch returns what the most recent relevant call left. -/
theorem C01_map (ops : List (NumOp w V)) (k : BitVec w) (bits : Int) :
    ExactMatch (run ops) k bits = lastWrite (ops.map NumOp.abs) (sig k (clampSpec w bits)) := by
  rw [exactMatch_eq_den (run_wf ops).1, (run_wf ops).2.1]

example : ExactMatch (run sample32) 0x0A01FFFF#32 16 = some 7 ∧ ExactMatch (run sample32) 0x0B010000#32 16 = none ∧
    ExactMatch (run sample32) 0x0A000000#32 8 = some 3 ∧ ExactMatch (run sample32) 0xC0000000#32 32 = some 4 := by
  decide +kernel
example : ExactMatch (run sample64) 0x20010db8ffffffff#64 32 = some 7 ∧
    ExactMatch (run sample64) 0xfe80000000000000#64 10 = none := by decide +kernel

/-! ## C02 -/

/-- C02: Match is longest-prefix match over what the history left stored. -/
theorem C02_longest_match (ops : List (NumOp w V)) (k : BitVec w) (bits : Int) :
    PMap.IsLongestMatch (lastWrite (ops.map NumOp.abs)) (sig k (clampSpec w bits)) (Match (run ops) k bits) := by
  have := match_longest (run_wf ops).1 k bits
  rwa [(run_wf ops).2.1] at this

omit [LawfulKeySize w] [Inhabited V] in
/-- The specification determines the answer, so C02 pins Match down completely. -/
theorem C02_answer_unique (m : PMap V) (q : List Bool) (r r' : Option V) (h : m.IsLongestMatch q r)
    (h' : m.IsLongestMatch q r') : r = r' := isLongestMatch_unique h h'

example : Match (run sample32) 0x0A01FFFF#32 32 = some 7 ∧ Match (run sample32) 0x0A02FFFF#32 32 = some 3 ∧
    Match (run sample32) 0x0A02FFFF#32 7 = none := by decide +kernel

/-! ## C03 -/

/-- C03: after Delete exactly the entries not contained in the argument are left, with their values. -/
theorem C03_delete_entries (ops : List (NumOp w V)) (k k' : BitVec w) (bits bits' : Int) :
    ExactMatch (Delete (run ops) k bits).1 k' bits' =
      if sig k (clampSpec w bits) <+: sig k' (clampSpec w bits') then none else ExactMatch (run ops) k' bits' := by
  have h := C01_map (NumOp.delete k bits :: ops) k' bits'
  rw [show run (NumOp.delete k bits :: ops) = (Delete (run ops) k bits).1 from rfl] at h
  rw [h, C01_map]
  rfl

/-- C03: the flag tells whether an enumerated entry was contained in the argument. -/
theorem C03_delete_flag (ops : List (NumOp w V)) (k : BitVec w) (bits : Int) :
    (Delete (run ops) k bits).2 = true ↔
      ∃ n ∈ Enumerate (run ops), sig k (clampSpec w bits) <+: sig n.key n.bits := by
  have h := run_wf ops
  have h1 := (del_spec h.1 k (clamp_le bits)).2.2.1
  unfold Delete
  rw [h1, PMap.HasBelow]
  constructor
  · rintro ⟨q, v, hq, hv⟩
    obtain ⟨n, hn, h2, _⟩ := (h.1.mem_enumerate_iff q v).1 hv
    subst h2; exact ⟨n, hn, hq⟩
  · rintro ⟨n, hn, h2⟩
    exact ⟨n.sig, n.value, by rw [clamp_eq]; exact h2, (h.1.mem_enumerate_iff _ _).2 ⟨n, hn, rfl, rfl⟩⟩

/-- C03: without a deletion the very same tree comes back. -/
theorem C03_delete_noop (ops : List (NumOp w V)) (k : BitVec w) (bits : Int)
    (h : (Delete (run ops) k bits).2 = false) : (Delete (run ops) k bits).1 = run ops :=
  (del_spec (run_wf ops).1 k (clamp_le bits)).2.2.2 h

example : (Delete (run sample32) 0x0A0F0000#32 8).2 = true ∧ (Delete (run sample32) 0x0A0F0000#32 16).2 = false ∧
    (Delete (run sample32) 0x0A0F0000#32 8).1 = .node ⟨0xC0000000#32, 32, true, 4⟩ .nil .nil := by decide +kernel

/-! ## C04 -/

/-- C04: Enumerate lists exactly the stored entries. -/
theorem C04_enumerate_complete (ops : List (NumOp w V)) (q : List Bool) (v : V) :
    lastWrite (ops.map NumOp.abs) q = some v ↔
      ∃ n ∈ Enumerate (run ops), sig n.key n.bits = q ∧ n.value = v := by
  rw [← (run_wf ops).2.1]; exact (run_wf ops).1.mem_enumerate_iff q v

/-- C04: Enumerate is strictly ordered by address, then prefix length; in particular it has no duplicates. -/
theorem C04_enumerate_sorted (ops : List (NumOp w V)) :
    (Enumerate (run ops)).Pairwise fun a b =>
      netKey a.key a.bits < netKey b.key b.bits ∨ (netKey a.key a.bits = netKey b.key b.bits ∧ a.bits < b.bits) :=
  (run_wf ops).1.enumerate_sorted

/-- C04: no two enumerated nodes stand for the same prefix. -/
theorem C04_enumerate_nodup (ops : List (NumOp w V)) :
    ((Enumerate (run ops)).map fun n => sig n.key n.bits).Nodup := by
  rw [List.nodup_iff_pairwise_ne, List.pairwise_map]
  have hp := (run_wf ops).1.enumerate_prop
  refine (List.Pairwise.and_mem.1 (C04_enumerate_sorted ops)).imp ?_
  rintro a b ⟨ha, hb, h⟩ he
  have h1 := (sig_eq_iff _ _ _ _).1 he
  have ha' := (hp a ha).2.1
  have hv : netKey a.key a.bits = netKey b.key b.bits := by
    unfold netKey
    have e1 := val_sig a.key ha'
    have e2 := val_sig b.key (h1.1 ▸ ha' : b.bits ≤ w)
    rw [he] at e1
    rw [← e1, ← e2, h1.1]
  omega

example : (Enumerate (run sample32)).map (fun n => (n.key, n.bits, n.value)) =
    [(0x0A0000FF#32, 8, 3), (0x0A010203#32, 16, 7), (0xC0000000#32, 32, 4)] := by decide +kernel

/-! ## C07 -/

/-- C07: a negative bit count acts as 0 in every method. -/
theorem C07_clamp_low (t : NTree w V) (k : BitVec w) (v : V) (bits : Int) (h : bits < 0) :
    Insert t k bits v = Insert t k 0 v ∧ Match t k bits = Match t k 0 ∧ ExactMatch t k bits = ExactMatch t k 0 ∧
    Delete t k bits = Delete t k 0 := by
  have : clamp w bits = clamp w 0 := by simp [clamp, h]; omega
  simp [Num.Insert, Match, ExactMatch, FindNode, Delete, this]

/-- C07: a bit count above the width acts as the width in every method. -/
theorem C07_clamp_high (t : NTree w V) (k : BitVec w) (v : V) (bits : Int) (h : (w : Int) < bits) :
    Insert t k bits v = Insert t k w v ∧ Match t k bits = Match t k w ∧ ExactMatch t k bits = ExactMatch t k w ∧
    Delete t k bits = Delete t k w := by
  have : clamp w bits = clamp w (w : Int) := by
    unfold clamp
    rw [if_neg (by omega), if_pos (by omega), if_neg (by omega), if_neg (by omega)]; simp
  simp [Num.Insert, Match, ExactMatch, FindNode, Delete, this]

omit [Inhabited V] in
/-- C07: queries and deletions ignore the key bits after the first `bits` ones. -/
theorem C07_low_bits_ignored (t : NTree w V) (k k' : BitVec w) (bits : Int)
    (h : ∀ i < clampSpec w bits, k.getMsbD i = k'.getMsbD i) :
    Match t k bits = Match t k' bits ∧ ExactMatch t k bits = ExactMatch t k' bits ∧
    Delete t k bits = Delete t k' bits := by
  have h' : sig k (clamp w bits) = sig k' (clamp w bits) := (sig_eq_iff _ _ _ _).2 ⟨rfl, h⟩
  have hb := clamp_le (w := w) bits
  refine ⟨?_, ?_, ?_⟩
  · unfold Match; rw [matchN_congr t hb h']
  · unfold ExactMatch FindNode; rw [exactMatch_congr t hb h']
  · unfold Delete; exact del_congr t hb h'

/-- C07: insertions that differ only in the ignored key bits give the same tree up to the raw `Key` fields
(`canon` clears the insignificant bits of every node's key).  The raw field itself does keep the caller's low bits,
see the example below. -/
theorem C07_low_bits_ignored_insert (ops : List (NumOp w V)) (k k' : BitVec w) (bits : Int) (v : V)
    (h : ∀ i < clampSpec w bits, k.getMsbD i = k'.getMsbD i) :
    canon (Insert (run ops) k bits v) = canon (Insert (run ops) k' bits v) := by
  have a := run_wf (NumOp.insert k bits v :: ops)
  have b := run_wf (NumOp.insert k' bits v :: ops)
  refine canon_unique a.1 b.1 ?_ a.2.2 b.2.2
  show den (run (NumOp.insert k bits v :: ops)) = den (run (NumOp.insert k' bits v :: ops))
  rw [a.2.1, b.2.1]
  have h' : sig k (clampSpec w bits) = sig k' (clampSpec w bits) := (sig_eq_iff _ _ _ _).2 ⟨rfl, h⟩
  simp only [List.map_cons, NumOp.abs, h']

example : Match (run sample32) 0x0A02FFFF#32 8 = Match (run sample32) 0x0A000000#32 8 ∧
    Match (run sample32) 0x0A02FFFF#32 8 = some 3 ∧ Match (run sample32) 0xC0000000#32 1000 = some 4 := by decide +kernel
/-- The raw `Key` of a node is not masked, so it can show the caller's insignificant bits. -/
example : (Enumerate (Insert (.nil : NTree 32 Nat) 0x0A0000FF#32 8 1)).map ND.key = [0x0A0000FF#32] ∧
    canon (Insert (.nil : NTree 32 Nat) 0x0A0000FF#32 8 1) = canon (Insert .nil 0x0A000000#32 8 1) := by decide +kernel

/-! ## C08 -/

omit [LawfulKeySize w] in
/-- Structural predicate, stated node by node. -/
def Economical (t : NTree w V) : Prop :=
  ∀ n l r, Sub (.node n l r) t →
    n.bits ≤ w ∧ (n.leaf = false → l ≠ .nil ∧ r ≠ .nil) ∧
    (∀ m x y, l = .node m x y → sig n.key n.bits ++ [false] <+: sig m.key m.bits) ∧
    (∀ m x y, r = .node m x y → sig n.key n.bits ++ [true] <+: sig m.key m.bits)
where
  /-- `s` is a subtree of `t`. -/
  Sub (s t : NTree w V) : Prop := match t with
    | .nil => False
    | .node n l r => s = .node n l r ∨ Sub s l ∨ Sub s r

/-- C08: nodes without data have two children and children extend their parent's prefix by the branch bit. -/
theorem C08_economical (ops : List (NumOp w V)) : Economical (run ops) := by
  have key : ∀ (t : NTree w V) P, WF P t → Economical t := by
    intro t
    induction t with
    | nil => intro P _ n l r h; exact h.elim
    | node n l r ihl ihr =>
      intro P h m x y hs
      obtain ⟨hb, hp, hc, hl, hr⟩ := h
      rcases hs with hs | hs | hs
      · cases hs
        refine ⟨hb, hc, ?_, ?_⟩
        · rintro m x y rfl; exact hl.2.1
        · rintro m x y rfl; exact hr.2.1
      · exact ihl _ hl m x y hs
      · exact ihr _ hr m x y hs
  exact key _ _ (run_wf ops).1

/-- C08: fewer nodes than twice the number of entries. -/
theorem C08_size (ops : List (NumOp w V)) (h : run ops ≠ .nil) :
    (run ops).size < 2 * (Enumerate (run ops)).length := (run_wf ops).1.size_lt h

/-- C08: paths have at most width+1 nodes. -/
theorem C08_height (ops : List (NumOp w V)) : (run ops).height ≤ w + 1 := by
  have := (run_wf ops).1.height_le (by simp)
  simpa using this

/-- C08: a lookup of `bits` bits enters at most `bits+1` nodes. -/
theorem C08_visits (ops : List (NumOp w V)) (k : BitVec w) (bits : Int) :
    matchVisits (run ops) k (clampSpec w bits) ≤ clampSpec w bits + 1 := by
  have := matchVisits_le (run_wf ops).1 k (clampSpec w bits)
  simp at this
  omega

example : (run sample32).size = 4 ∧ (Enumerate (run sample32)).length = 3 ∧ (run sample32).height = 3 ∧
    matchVisits (run sample32) 0x0A010000#32 32 = 3 := by decide +kernel

/-! ## C09 -/

/-- C09: two histories leaving the same entries leave the same tree, up to the raw low key bits. -/
theorem C09_canonical (ops ops' : List (NumOp w V))
    (h : ∀ (k : BitVec w) (bits : Int), ExactMatch (run ops) k bits = ExactMatch (run ops') k bits) :
    canon (run ops) = canon (run ops') := by
  have a := run_wf ops
  have b := run_wf ops'
  refine canon_unique a.1 b.1 ?_ a.2.2 b.2.2
  funext q
  have side : ∀ (x y : List (NumOp w V)), (∀ (k : BitVec w) (bits : Int), ExactMatch (run x) k bits = ExactMatch (run y) k bits) →
      ∀ v, den (run x) q = some v → den (run y) q = some v := by
    intro x y hxy v hv
    obtain ⟨n, hn, h1, _⟩ := ((run_wf x).1.mem_enumerate_iff q v).1 hv
    have hb := ((run_wf x).1.enumerate_prop n hn).2.1
    have hc : clampSpec w (n.bits : Int) = n.bits := by unfold clampSpec; rw [if_neg (by omega), if_neg (by omega)]; simp
    have h2 := hxy n.key n.bits
    rw [exactMatch_eq_den (run_wf x).1, exactMatch_eq_den (run_wf y).1, hc] at h2
    rw [← h1] at hv ⊢
    rw [← h2]; exact hv
  cases h1 : den (run ops) q with
  | some v => exact (side ops ops' h v h1).symm
  | none =>
    cases h2 : den (run ops') q with
    | none => rfl
    | some v => rw [side ops' ops (fun k b => (h k b).symm) v h2] at h1; cases h1

/-- Different histories (other order, an extra insertion and deletion) with the same entries. -/
example : canon (run sample32) = canon (run
    ([.delete 0x0A020000#32 16, .insert 0xC0000000#32 32 4, .insert 0x0A000000#32 8 3, .insert 0x0A020000#32 17 9,
      .insert 0x0A010000#32 16 7] : List (NumOp 32 Nat))) := by decide +kernel

/-! ## C10 -/

/-- C10: table entry `i` has exactly the `i` most significant bits set (32 bit). -/
theorem C10_masks32 (i : Nat) (h : i ≤ 32) :
    ∃ m, keySize32.masks[i]? = some m ∧ ∀ j < 32, m.getMsbD j = decide (j < i) := by
  refine ⟨_, masks32_entry i h, fun j _ => ?_⟩
  exact getMsbD_hiMask h

/-- C10: table entry `i` has exactly the `i` most significant bits set (64 bit). -/
theorem C10_masks64 (i : Nat) (h : i ≤ 64) :
    ∃ m, keySize64.masks[i]? = some m ∧ ∀ j < 64, m.getMsbD j = decide (j < i) := by
  refine ⟨_, masks64_entry i h, fun j _ => ?_⟩
  exact getMsbD_hiMask h

/-- C10: the leading-zero computation is the length of the longest common prefix. -/
theorem C10_ncsb (k1 k2 : BitVec w) (b1 b2 : Nat) (h1 : b1 ≤ w) (h2 : b2 ≤ w) :
    ncsb k1 b1 k2 b2 = lcpLen (sig k1 b1) (sig k2 b2) := ncsb_eq_lcpLen h1 h2

example : ncsb 0x0A010203#32 16 0x0A0000FF#32 24 = 15 ∧ ncsb 0x0A010203#32 16 0x0A0000FF#32 8 = 8 ∧
    keySize64.masks[33]? = some 0xffffffff80000000#64 := by decide +kernel

end Verif.Props
