import Verif.Miss.Lemmas
import Verif.Props.Iptree
import Verif.Props.Numtree
import Verif.Props.Strtree
import Verif.Props.Dltree
import Verif.Props.Domaintree
import Verif.Props.UIptree

/-!
# Property C74: what a lookup returns beside a false flag

Every lookup returns a value and a flag.  One expects nil or 0 as the value if the flag is false.  This holds for strtree, dltree,
domaintree and all generated trees.  It is **false** for `numtree` `Match` and `iptree` `GetByNet`/`GetByIP` on trees without networks (of
the family looked up): they return a nil pointer to a node as an `interface{}`, which is not equal to nil.
-/

namespace Verif.Props
open Verif Verif.Num

section
variable {w : Nat} {V : Type} [LawfulKeySize w] [Inhabited V]

/-- C74 for numtree `Match`: the value found, or nil, or on an empty tree a nil pointer to a node. -/
theorem C74_numtree_partial (ops : List (NumOp w V)) (k : BitVec w) (bits : Int) :
    (∃ v, PMap.IsLongestMatch (lastWrite (ops.map NumOp.abs)) (sig k (clampSpec w bits)) (some v) ∧
      Miss.Match .user (run ops) k bits = (.user v, true)) ∨
    (PMap.IsLongestMatch (lastWrite (ops.map NumOp.abs)) (sig k (clampSpec w bits)) none ∧
      ((∀ p, lastWrite (ops.map NumOp.abs) p = none) ∧ Miss.Match .user (run ops) k bits = (.nilNode w, false) ∨
       (∃ p v, lastWrite (ops.map NumOp.abs) p = some v) ∧ Miss.Match .user (run ops) k bits = (.nil, false))) := by
  have hm := C02_longest_match ops k bits
  rw [Miss.match_eq]
  cases h : Num.Match (run ops) k bits with
  | some v => rw [h] at hm; exact .inl ⟨v, hm, rfl⟩
  | none =>
    rw [h] at hm
    refine .inr ⟨hm, ?_⟩
    obtain ⟨hw, hd, _⟩ := run_wf ops
    cases ht : run ops with
    | nil =>
      refine .inl ⟨fun p => ?_, rfl⟩
      rw [← hd, ht]; rfl
    | node n l r =>
      obtain ⟨q, v, e⟩ := Miss.den_exists hw (by rw [ht]; simp)
      exact .inr ⟨⟨q, v, by rw [← hd]; exact e⟩, rfl⟩

/-- C74 for numtree `ExactMatch`: nil beside a false flag. -/
theorem C74_numtree_exact (ops : List (NumOp w V)) (k : BitVec w) (bits : Int) :
    Miss.ExactMatch .user (run ops) k bits =
      match lastWrite (ops.map NumOp.abs) (sig k (clampSpec w bits)) with
      | some v => (.user v, true)
      | none => (.nil, false) := by
  rw [Miss.exactMatch_eq, C01_map]
  cases lastWrite (ops.map NumOp.abs) (sig k (clampSpec w bits)) <;> rfl

/-- C74 fails for numtree `Match`: on an empty tree the value beside false is not nil. -/
theorem C74_numtree_false : ∀ (k : BitVec w) (bits : Int),
    (Miss.Match (V := V) .user (run ([] : List (NumOp w V))) k bits).2 = false ∧ (Miss.Match (V := V) .user (run ([] : List (NumOp w V))) k bits).1 ≠ .nil :=
  fun _ _ => ⟨rfl, fun h => by cases h⟩
end

section
variable {V : Type} [Inhabited V]

/-- The width of the tree a family is stored in. -/
def famWidth : Fam → Nat
  | .v4 => 32
  | .v6 => 64

/-- C74 for iptree: the value found, or nil, or, if the tree exists and stores no network of the family, a nil pointer to a node. -/
theorem C74_iptree_partial {t0 : Option (IP.Tree V)} (h0 : IP.EmptyT t0) (ops : List (IP.Op V × Option (Fam × POp V)))
    (h : ∀ p ∈ ops, IP.OpNet p.1 p.2) {n : IPNet} {f : Fam} {p : List Bool} (hn : IsNet n f p) :
    ∃ t, IP.run t0 (ops.map Prod.fst) = some t ∧
      ((∃ v, PMap.IsLongestMatch (lastNet (ops.filterMap Prod.snd) f) p (some v) ∧ Miss.GetByNet t (some n) = (.user v, true)) ∨
       (PMap.IsLongestMatch (lastNet (ops.filterMap Prod.snd) f) p none ∧
        (t ≠ none ∧ (∀ q, lastNet (ops.filterMap Prod.snd) f q = none) ∧ Miss.GetByNet t (some n) = (.nilNode (famWidth f), false) ∨
         (t = none ∨ ∃ q v, lastNet (ops.filterMap Prod.snd) f q = some v) ∧ Miss.GetByNet t (some n) = (.nil, false)))) := by
  obtain ⟨t, r, h1, h2, h3⟩ := C37_longest_match h0 ops h hn
  obtain ⟨t', h1', hw, hd⟩ := IP.run_spec h0 ops h
  rw [h1] at h1'; cases h1'
  refine ⟨t, h1, ?_⟩
  cases t with
  | none =>
    have hr : r = none := by cases r with | none => rfl | some v => simp [IP.GetByNet] at h2
    subst hr
    exact .inr ⟨h3, .inr ⟨.inl rfl, rfl⟩⟩
  | some t =>
    replace hw : IP.WFT t := hw
    rw [Miss.getByNet_eq, h2]
    cases r with
    | some v => exact .inl ⟨v, h3, rfl⟩
    | none =>
      refine .inr ⟨h3, ?_⟩
      have hex : (∀ q, IP.denT t f q = none) ∨ ∃ q v, IP.denT t f q = some v := by
        by_cases hx : ∃ q v, IP.denT t f q = some v
        · exact .inr hx
        · left; intro q
          cases hq : IP.denT t f q with
          | none => rfl
          | some v => exact absurd ⟨q, v, hq⟩ hx
      have hd' : ∀ q, lastNet (ops.filterMap Prod.snd) f q = IP.denT t f q := fun q => (hd f q).symm
      simp only [hd', Option.map_none]
      cases f with
      | v4 =>
        obtain ⟨k, b, hk, _⟩ := IP.v4Key_of_isNet hn
        simp only [hk]
        rcases hex with hx | ⟨q, v, hq⟩
        · rw [if_pos ((Miss.root32_nil hw).2 hx)]
          exact .inl ⟨by simp, hx, rfl⟩
        · rw [if_neg (fun hc => by have := (Miss.root32_nil hw).1 hc q; rw [this] at hq; cases hq)]
          exact .inr ⟨.inr ⟨q, v, hq⟩, rfl⟩
      | v6 =>
        obtain ⟨k, hk, _⟩ := IP.v6Pair_of_isNet hn
        simp only [hk, IP.v4Key_of_v6 hn]
        rcases hex with hx | ⟨q, v, hq⟩
        · rw [if_pos ((Miss.root64_nil hw).2 hx)]
          exact .inl ⟨by simp, hx, rfl⟩
        · rw [if_neg (fun hc => by have := (Miss.root64_nil hw).1 hc q; rw [this] at hq; cases hq)]
          exact .inr ⟨.inr ⟨q, v, hq⟩, rfl⟩

omit [Inhabited V] in
/-- C74: malformed or missing networks give nil and false on every tree. -/
theorem C74_iptree_malformed (t : Option (IP.Tree V)) :
    Miss.GetByNet t none = (.nil, false) ∧ ∀ n : IPNet, (∀ f p, ¬ IsNet n f p) → Miss.GetByNet t (some n) = (.nil, false) := by
  refine ⟨by cases t <;> rfl, fun n hn => ?_⟩
  cases t with
  | none => rfl
  | some t =>
    have h4 : IP.v4Key n = none := by
      cases hk : IP.v4Key n with
      | none => rfl
      | some x => exact absurd (IP.v4Key_some (k := x.1) (b := x.2) hk).2 (hn _ _)
    have h6 : IP.v6Pair n = none := by
      cases hk : IP.v6Pair n with
      | none => rfl
      | some x => exact absurd (IP.v6Pair_some hk).2 (hn _ _)
    simp [Miss.GetByNet, h4, h6]

/-- C74 fails for iptree: GetByNet of any network on a new tree returns something that is not nil, with false. -/
theorem C74_iptree_false {n : IPNet} {f : Fam} {p : List Bool} (hn : IsNet n f p) :
    (Miss.GetByNet (some (IP.NewTree : IP.Tree V)) (some n)).2 = false ∧ (Miss.GetByNet (some (IP.NewTree : IP.Tree V)) (some n)).1 ≠ .nil := by
  obtain ⟨t, h1, h2⟩ := C74_iptree_partial (V := V) (.inr rfl) [] (by simp) hn
  cases h1
  rcases h2 with ⟨v, hv, _⟩ | ⟨_, ⟨_, _, e⟩ | ⟨h | ⟨q, v, h⟩, _⟩⟩
  · rcases hv with ⟨q, v', _, _, hq, _⟩ | ⟨h, _⟩
    · simp [lastNet, lastWrite] at hq
    · cases h
  · rw [e]; exact ⟨rfl, fun h => by cases h⟩
  · cases h
  · simp [lastNet, lastWrite] at h
end

section
variable {V : Type}

/-- C74: strtree `Get`. -/
theorem C74_strtree (zero : V) (t : Option (Strtree.Tree V)) (key : Bytes) :
    Miss.SGet zero t key = match Strtree.Get t key with
      | some v => (v, true)
      | none => (zero, false) := by
  cases t with
  | none => rfl
  | some t =>
    simp only [Miss.SGet, Strtree.Get, Miss.get_eq, Miss.both]
    cases RB.get t.compare t.root key <;> rfl

/-- C74: dltree `RawGet`. -/
theorem C74_dltree_raw (zero : V) (t : Option (DL.Tree V)) (key : Bytes) :
    Miss.RawGet zero t key = match DL.RawGet t key with
      | some v => (v, true)
      | none => (zero, false) := by
  cases t with
  | none => rfl
  | some t =>
    simp only [Miss.RawGet, DL.RawGet, Miss.get_eq, Miss.both]
    cases RB.get DL.cmpLabel t.root key <;> rfl

/-- C74: dltree `Get`; it panics when the other model does (C28). -/
theorem C74_dltree (zero : V) (t : Option (DL.Tree V)) (key : Bytes) :
    Miss.LGet zero t key = (DL.Get t key).map fun
      | some v => (v, true)
      | none => (zero, false) := by
  cases t with
  | none => rfl
  | some t =>
    simp only [Miss.LGet, DL.Get]
    cases DL.labelOf key with
    | none => rfl
    | some dl =>
      simp only [Option.map_some, Miss.get_eq, Miss.both]
      cases RB.get DL.cmpLabel t.root dl <;> rfl

/-- C74: domaintree `Get`, of the generated domain trees too. -/
theorem C74_domaintree (zero : V) (n : Option (DomTree.Node V)) (d : Domain.Name) :
    Miss.DGet zero n d = (DomTree.Get n d).map fun
      | some v => (v, true)
      | none => (zero, false) := by
  rw [Miss.dGet_eq]
  cases DomTree.Get n d with
  | none => rfl
  | some o => cases o <;> rfl

/-- C74: `GetByNet` of the generated IP trees. -/
theorem C74_uint (zero : V) (t : Option (UIP.Tree V)) (n : Option IPNet) :
    Miss.UGetByNet zero t n = match UIP.GetByNet t n with
      | some v => (v, true)
      | none => (zero, false) := by
  rw [Miss.uGetByNet_eq]
  cases UIP.GetByNet t n <;> rfl
end

/-! ## Examples -/

/-- Shape of a result, for examples. -/
def anyTag : Miss.Any Nat × Bool → String
  | (.nil, b) => s!"nil {b}"
  | (.user v, b) => s!"{v} {b}"
  | (.nilNode w, b) => s!"(*Node{w})(nil) {b}"
  | (.sub _, b) => s!"tree {b}"

example : anyTag (Miss.Match .user (run sample32) 0x0A010203#32 32) = "7 true" ∧ anyTag (Miss.Match .user (run sample32) 0x0C000000#32 32) = "nil false" ∧
    anyTag (Miss.Match .user (run ([] : List (NumOp 32 Nat))) 0x0C000000#32 32) = "(*Node32)(nil) false" := by decide +kernel

example : (IP.run none sampleIP).map (fun t => (anyTag (Miss.GetByNet t (some (net4 10 9 9 9 32))), anyTag (Miss.GetByNet t (some (net4 11 0 0 0 8))),
      anyTag (Miss.GetByNet t (some (net6 0x20 0x01 0 1 128))), anyTag (Miss.GetByNet t (some (net6 0x20 0x02 0 1 128))))) =
    some ("2 true", "nil false", "6 true", "nil false") := by decide +kernel

example : (IP.run none [IP.Op.insertIP [10, 1, 2, 3] 3]).map (fun t => (anyTag (Miss.GetByIP t [10, 1, 2, 4]), anyTag (Miss.GetByNet t (some (net6 0x20 0x01 0 1 128))))) =
    some ("nil false", "(*Node64)(nil) false") := by decide +kernel

/-- The hypothesis of `C74_iptree_false` is met by 10.0.0.0/8. -/
example : IsNet (net4 10 0 0 0 8) .v4 [false, false, false, false, true, false, true, false] := by
  refine ⟨by decide, by decide, by decide, by decide +kernel, by decide +kernel⟩

example : (Strtree.run (V := Nat) Strtree.NewTree [.delete [1], .insert [3] 1, .insert [1] 2]).map (fun t => (Miss.SGet 0 t [3], Miss.SGet 0 t [1], Miss.SGet 0 none [1])) =
    some ((1, true), (0, false), (0, false)) := by decide +kernel

example : (DL.run (V := Nat) none [.rawInsert [67] 3, .insert [97, 92, 46, 66] 1]).map
    (fun t => (Miss.LGet 0 t [65, 92, 46, 98], Miss.RawGet 0 t [67], Miss.RawGet 0 t [68])) = some (some (1, true), (3, true), (0, false)) := by decide +kernel

example : (DomTree.run (V := Nat) none [.insert (nm "x.EXAMPLE.com") 3, .insert (nm "example.com.") 1]).map
    (fun n => [nm "www.example.com", nm "com", nm "a.x.Example.COM"].map (Miss.DGet 0 n)) =
    some [some (1, true), some (0, false), some (3, true)] := by decide +kernel

example : [net6 0x20 0x01 0 1 128, net6 0x20 0x02 0 0 63, net4 10 0 0 1 32, net4 11 0 0 0 8].map (fun n => Miss.UGetByNet 0 (UIP.run none sampleU) (some n)) =
    [(6, true), (0, false), (1, true), (0, false)] := by decide +kernel

end Verif.Props
