import Verif.Miss.Model
import Verif.IP.Lemmas
import Verif.Num.Shape

namespace Verif.Miss
open Verif Verif.Num Verif.RB

/-- Both results from one. -/
def both {V : Type} (zero : V) (o : Option V) : V × Bool := (o.getD zero, o.isSome)

section
variable {w : Nat} [KeySize w] {V : Type}

theorem match_eq {W : Type} (wrap : W → Any V) (t : NTree w W) (k : BitVec w) (b : Int) :
    Match wrap t k b = match Num.Match t k b with
      | some v => (wrap v, true)
      | none => (if t.isNil then .nilNode w else .nil, false) := by
  cases t with
  | nil => simp [Match, Num.Match, matchN, BTree.isNil]
  | node n l r =>
    simp only [Match, Num.Match]
    cases matchN (.node n l r) k (clamp w b) <;> simp [BTree.isNil]

theorem exactMatch_eq {W : Type} (wrap : W → Any V) (t : NTree w W) (k : BitVec w) (b : Int) :
    ExactMatch wrap t k b = match Num.ExactMatch t k b with
      | some v => (wrap v, true)
      | none => (.nil, false) := by
  simp only [ExactMatch, Num.ExactMatch]
  cases FindNode t k b <;> rfl

theorem matchZ_eq (zero : V) (t : NTree w V) (k : BitVec w) (b : Int) : MatchZ zero t k b = both zero (Num.Match t k b) := by
  cases t with
  | nil => rfl
  | node n l r =>
    simp only [MatchZ, Num.Match, both]
    cases matchN (.node n l r) k (clamp w b) <;> rfl
end

variable {V : Type}

theorem get_eq {K : Type} (zero : V) (cmp : K → K → Int) (t : RTree K V) (key : K) : get zero cmp t key = both zero (RB.get cmp t key) := by
  induction t with
  | nil => rfl
  | node d l r ihl ihr =>
    simp only [get, RB.get]
    split
    · rfl
    · split
      · exact ihr
      · exact ihl

theorem uGetByNet_eq (zero : V) (t : Option (UIP.Tree V)) (n : Option IPNet) :
    UGetByNet zero t n = both zero (UIP.GetByNet t n) := by
  cases t with
  | none => rfl
  | some t =>
    cases n with
    | none => rfl
    | some n =>
      simp only [UGetByNet, UIP.GetByNet]
      cases IP.v4Key n with
      | some kb => exact matchZ_eq _ _ _ _
      | none =>
        cases IP.v6Pair n with
        | none => rfl
        | some k =>
          simp only [matchZ_eq, both]
          cases Num.Match t.root64 k.msKey k.msBits with
          | none => rfl
          | some s =>
            simp only [Option.isSome_some, Option.getD_some]
            cases Num.Match s k.lsKey k.lsBits with
            | some v => rfl
            | none =>
              by_cases hm : k.msBits < 64
              · simp [hm]
              · simp only [hm]
                cases Num.Match t.root64 k.msKey ((k.msBits : Int) - 1) <;> simp

theorem getLabels_both (zero : V) (c : Bytes) : ∀ (fuel off : Nat) (n : DomTree.Node V) (o : Option V),
    (Domain.getLabelsLoop getStep c fuel off (n, both zero o)).map (fun x => x.1.2) =
      (Domain.getLabelsLoop DomTree.getStep c fuel off (n, o)).map fun x => both zero x.1.2
  | 0, _, _, _ => rfl
  | fuel + 1, off, n, o => by
    simp only [Domain.getLabelsLoop]
    split
    · split
      · rfl
      · simp only [getStep, DomTree.getStep]
        cases DL.RawGet n.branches _ with
        | none => rfl
        | some n' =>
          simp only []
          cases n'.val with
          | none => exact getLabels_both zero c fuel _ n' o
          | some v => exact getLabels_both zero c fuel _ n' (some v)
    · rfl

theorem dGet_eq (zero : V) (n : Option (DomTree.Node V)) (d : Domain.Name) :
    DGet zero n d = (DomTree.Get n d).map (both zero) := by
  cases n with
  | none => rfl
  | some n =>
    simp only [DGet, DomTree.Get, Option.map_map]
    exact getLabels_both zero d.c _ 0 n none

/-! ## iptree -/

/-- The value beside a false flag: a nil node of the family's width if the family's tree is nil. -/
theorem getByNet_eq (t : IP.Tree V) (n : IPNet) :
    GetByNet (some t) (some n) = match IP.GetByNet (some t) (some n) with
      | some v => (wrapTV v, true)
      | none =>
        (match IP.v4Key n, IP.v6Pair n with
          | some _, _ => if t.root32.isNil then .nilNode 32 else .nil
          | none, some _ => if t.root64.isNil then .nilNode 64 else .nil
          | none, none => .nil, false) := by
  simp only [GetByNet, IP.GetByNet]
  cases h4 : IP.v4Key n with
  | some kb =>
    simp only [match_eq]
    cases Num.Match t.root32 kb.1 kb.2 <;> rfl
  | none =>
    cases IP.v6Pair n with
    | none => rfl
    | some k =>
      simp only [match_eq]
      cases hm : Num.Match t.root64 k.msKey k.msBits with
      | none => rfl
      | some v =>
        have hne : t.root64.isNil = false := by
          cases h : t.root64 with
          | nil => rw [h] at hm; simp [Num.Match, matchN] at hm
          | node => rfl
        simp only []
        by_cases hb : k.msBits < 64
        · simp [hb]
        · simp only [hb]
          cases v with
          | user u => simp [wrapTV]
          | sub s =>
            simp only [wrapTV]
            cases Num.Match s k.lsKey k.lsBits with
            | some v => simp
            | none =>
              simp only [Bool.not_true, decide_false, Bool.or_false]
              cases Num.Match t.root64 k.msKey 63 <;> simp [hne]

/-- A tree with nodes holds an entry. -/
theorem den_exists {w : Nat} [LawfulKeySize w] {W : Type} {P : List Bool} {t : NTree w W} (h : WF P t) (hne : t ≠ .nil) : ∃ q v, den t q = some v := by
  have := h.size_lt hne
  have hl : 0 < (enumerate t).length := by omega
  have he : (entries t).length = (enumerate t).length := by simp [entries]
  cases h2 : entries t with
  | nil => rw [h2] at he; simp at he; omega
  | cons x xs =>
    obtain ⟨q, v⟩ := x
    exact ⟨q, v, by simp [den, h2]⟩

/-- The tree of a family is nil exactly if no network of the family is stored. -/
theorem root32_nil {t : IP.Tree V} (h : IP.WFT t) : t.root32.isNil = true ↔ ∀ q, IP.denT t .v4 q = none := by
  constructor
  · intro hn q
    cases ht : t.root32 with
    | nil => simp [IP.denT, ht]
    | node => rw [ht] at hn; simp [BTree.isNil] at hn
  · intro hq
    cases ht : t.root32 with
    | nil => rfl
    | node n l r =>
      obtain ⟨q, v, e⟩ := den_exists h.v4 (by rw [ht]; simp)
      have := hq q
      simp only [IP.denT] at this
      rw [this] at e; cases e

theorem root64_nil {t : IP.Tree V} (h : IP.WFT t) : t.root64.isNil = true ↔ ∀ q, IP.denT t .v6 q = none := by
  constructor
  · intro hn q
    cases ht : t.root64 with
    | nil => simp [IP.denT, IP.den6, IP.userDen, IP.subDen, ht]
    | node => rw [ht] at hn; simp [BTree.isNil] at hn
  · intro hq
    cases ht : t.root64 with
    | nil => rfl
    | node n l r =>
      obtain ⟨q, v, e⟩ := den_exists h.v6.1 (by rw [ht]; simp)
      rcases h.v6.2 q v e with ⟨hl, u, rfl⟩ | ⟨hl, s, rfl, hs, hw⟩
      · have := hq q
        simp [IP.denT, IP.den6, hl, e, IP.userDen] at this
      · obtain ⟨q', u, e'⟩ := den_exists hw hs
        have := hq (q ++ q')
        have hlt : ¬ (64 + q'.length < 64) := by omega
        simp [IP.denT, IP.den6, hl, e, IP.subDen, e', hlt] at this

end Verif.Miss
