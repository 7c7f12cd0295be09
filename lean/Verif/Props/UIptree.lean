import Verif.UIP.History
import Verif.Props.IptreeUpdate

/-!
# Properties C47, C48 (and C53) of the generated packages uintX/iptree8, 16, 32, 64

Histories are lists of calls paired with their meaning, as for iptree.
-/

namespace Verif.Props
open Verif
open Verif.IP (Op OpNet cidrMask)
open Verif.UIP (Tree NewTree GetByNet GetByIP DeleteByNet DeleteByIP InsertNet InsertIP Enumerate)
variable {V : Type} [Inhabited V]

/-- Calls used in the examples: as `sampleIP`, without deletions. -/
def sampleU : List (Op Nat) :=
  [.insertNet (some (net6 0x20 0x01 0 1 128)) 6, .insertNet (some (net6 0x20 0x01 0 0 64)) 5,
   .insertNet (some (net6 0x20 0x01 0xff 0xff 16)) 4, .insertNet (some ⟨[10, 0, 0, 0], [0xff, 0, 0xff, 0]⟩) 9,
   .insertIP [10, 1, 2, 3] 3, .insertNet (some (net4 10 0 0 7 8)) 2, .insertIP (v4in6 ++ [10, 0, 0, 1]) 1]

/-- C53: the listing of a generated IP tree holds each stored network once, in order, under its canonical key, and lookup is
relative to the same networks: everything listed is found under its own key. -/
theorem C53_listing {t0 : Option (Tree V)} (h0 : UIP.EmptyT t0) (ops : List (Op V × Option (Fam × POp V))) (h : ∀ p ∈ ops, OpNet p.1 p.2) :
    let t := UIP.run t0 (ops.map Prod.fst)
    (Enumerate t).Pairwise (fun a b => NetBefore a.1 b.1) ∧ ∀ x ∈ Enumerate t, (∃ f p, IsCanonNet x.1 f p) ∧ GetByNet t (some x.1) = some x.2 := by
  obtain ⟨h1, _⟩ := UIP.run_spec h0 ops h
  simp only
  cases ht : UIP.run t0 (ops.map Prod.fst) with
  | none => exact ⟨List.Pairwise.nil, fun x hx => by simp [Enumerate] at hx⟩
  | some t =>
    rw [ht] at h1
    refine ⟨UIP.enumerate_sorted h1, fun x hx => ?_⟩
    obtain ⟨f, p, e1, e2⟩ := UIP.enumerate_sound h1 x hx
    refine ⟨⟨f, p, e1⟩, ?_⟩
    have e2 : UIP.denT t f p = some x.2 := e2
    rcases UIP.getByNet_ok (t := t) h1 e1.1 with ⟨q, v, g1, g2, g3, g4⟩ | ⟨_, g2⟩
    · have hl := g4 p x.2 List.prefix_rfl e2
      have : q = p := g2.eq_of_length (by have := g2.length_le; omega)
      rw [this, e2] at g3
      rw [g1, ← g3]
    · rw [g2 p List.prefix_rfl] at e2; cases e2

example : (Enumerate (UIP.run none sampleU)).map (fun x => (beNat x.1.ip, onesOf x.1.mask, x.2)) =
    [(0x0a000000, 8, 2), (0x0a000001, 32, 1), (0x0a010203, 32, 3), (0x2001 * 2 ^ 112, 16, 4), (0x2001 * 2 ^ 112, 64, 5),
     (0x2001 * 2 ^ 112 + 1, 128, 6)] := by decide +kernel

/-- C47: GetByNet is longest-prefix match among the stored (listed) networks of the family of its argument. -/
theorem C47_longest_match {t0 : Option (Tree V)} (h0 : UIP.EmptyT t0) (ops : List (Op V × Option (Fam × POp V))) (h : ∀ p ∈ ops, OpNet p.1 p.2)
    {n : IPNet} {f : Fam} {p : List Bool} (hn : IsNet n f p) :
    let t := UIP.run t0 (ops.map Prod.fst)
    (∃ q v, GetByNet t (some n) = some v ∧ q <+: p ∧ Listed (Enumerate t) f q v ∧
      ∀ q' v', q' <+: p → Listed (Enumerate t) f q' v' → q'.length ≤ q.length) ∨
    (GetByNet t (some n) = none ∧ ∀ q v, q <+: p → ¬ Listed (Enumerate t) f q v) := by
  obtain ⟨h1, _⟩ := UIP.run_spec h0 ops h
  simp only
  cases ht : UIP.run t0 (ops.map Prod.fst) with
  | none => exact .inr ⟨rfl, fun q v _ ⟨x, hx, _⟩ => by simp [Enumerate] at hx⟩
  | some t =>
    rw [ht] at h1
    have hl : ∀ q v, Listed (Enumerate (some t)) f q v ↔ UIP.denT t f q = some v := by
      intro q v
      constructor
      · rintro ⟨x, hx, hc, rfl⟩
        obtain ⟨g, q', e1, e2⟩ := UIP.enumerate_sound h1 x hx
        obtain ⟨rfl, rfl⟩ := IP.IsNet.unique hc.1 e1.1
        exact e2
      · exact UIP.enumerate_complete h1
    simp only [hl]
    rcases UIP.getByNet_ok (t := t) h1 hn with ⟨q, v, g1, g2, g3, g4⟩ | ⟨g1, g2⟩
    · exact .inl ⟨q, v, g1, g2, g3, g4⟩
    · exact .inr ⟨g1, fun q v hq hv => by rw [g2 q hq] at hv; cases hv⟩

/-- C47, against the history itself: as long as no IPv6 network below 64 bits was deleted (see C48), the answer is the longest match
among the last writes, exactly as for iptree. -/
theorem C47_history {t0 : Option (Tree V)} (h0 : UIP.EmptyT t0) (ops : List (Op V × Option (Fam × POp V))) (h : ∀ p ∈ ops, OpNet p.1 p.2)
    (hdel : ∀ f p, (f, POp.delete p) ∈ ops.filterMap Prod.snd → f = .v4 ∨ ¬ p.length < 64)
    {n : IPNet} {f : Fam} {p : List Bool} (hn : IsNet n f p) :
    PMap.IsLongestMatch (lastNet (ops.filterMap Prod.snd) f) p (GetByNet (UIP.run t0 (ops.map Prod.fst)) (some n)) := by
  obtain ⟨h1, h2⟩ := UIP.run_spec h0 ops h
  have hf : UIP.denT (UIP.base (UIP.run t0 (ops.map Prod.fst))) f = lastNet (ops.filterMap Prod.snd) f := by
    rw [h2]; exact funext fun q => UIP.uRun_eq_lastNet _ hdel f q
  rw [← hf]
  cases ht : UIP.run t0 (ops.map Prod.fst) with
  | none => exact .inr ⟨rfl, fun q _ => UIP.denT_new f q⟩
  | some t =>
    rw [ht] at h1
    exact UIP.getByNet_ok h1 hn

/-- C47, against the history itself with the deletions as the packages perform them. -/
theorem C47_history_exact {t0 : Option (Tree V)} (h0 : UIP.EmptyT t0) (ops : List (Op V × Option (Fam × POp V))) (h : ∀ p ∈ ops, OpNet p.1 p.2)
    {n : IPNet} {f : Fam} {p : List Bool} (hn : IsNet n f p) :
    PMap.IsLongestMatch (UIP.uRun (ops.filterMap Prod.snd) f) p (GetByNet (UIP.run t0 (ops.map Prod.fst)) (some n)) := by
  obtain ⟨h1, h2⟩ := UIP.run_spec h0 ops h
  rw [← h2]
  cases ht : UIP.run t0 (ops.map Prod.fst) with
  | none => exact .inr ⟨rfl, fun q _ => UIP.denT_new f q⟩
  | some t =>
    rw [ht] at h1
    exact UIP.getByNet_ok h1 hn

example : [net6 0x20 0x01 0 1 128, net6 0x20 0x01 0 2 128, net6 0x20 0x01 0 0 64, net6 0x20 0x01 0 0 63, net6 0x20 0x02 0 0 63,
     net4 10 0 0 1 32, net4 10 1 2 3 32, net4 11 0 0 0 8].map (fun n => GetByNet (UIP.run none sampleU) (some n)) =
    [some 6, some 5, some 5, some 4, none, some 1, some 3, none] := by decide +kernel

/-- C48 is false for IPv6: a deletion of a network below 64 bits that is not stored itself removes nothing, though it contains stored
networks. -/
theorem C48_false : ∃ t : Tree Nat, UIP.run none sampleU = some t ∧
    DeleteByNet (some t) (some (net6 0x20 0 0 0 8)) = (some t, false) ∧
    GetByNet (some t) (some (net6 0x20 0x01 0 1 128)) = some 6 ∧
    (∀ x ∈ Enumerate (some t), strictlyBelow .v6 (sig (0x20 : BitVec 8) 8) x.1 = true → x.2 ∈ [4, 5, 6]) ∧
    ∃ x ∈ Enumerate (some t), strictlyBelow .v6 (sig (0x20 : BitVec 8) 8) x.1 = true := by
  refine ⟨_, rfl, rfl, by decide +kernel, by decide +kernel, by decide +kernel⟩

/-- C48 for the deletions that work: IPv4, IPv6 of at least 64 bits, and stored IPv6 networks.  What is missing from the claim is exactly
the case of `C48_false`, for which `C48_ineffective` says what happens. -/
theorem C48_delete_partial {t0 : Option (Tree V)} (h0 : UIP.EmptyT t0) (ops : List (Op V × Option (Fam × POp V))) (h : ∀ p ∈ ops, OpNet p.1 p.2)
    {n : IPNet} {f : Fam} {p : List Bool} (hn : IsNet n f p) (t : Option (Tree V)) (ht : t = UIP.run t0 (ops.map Prod.fst))
    (heff : f = .v4 ∨ 64 ≤ p.length ∨ ∃ v, Listed (Enumerate t) f p v) :
    ((DeleteByNet t (some n)).2 = true ↔ ∃ q v, p <+: q ∧ Listed (Enumerate t) f q v) ∧
    ((DeleteByNet t (some n)).2 = false → (DeleteByNet t (some n)).1 = t) ∧
    ∀ g q v, Listed (Enumerate (DeleteByNet t (some n)).1) g q v ↔ Listed (Enumerate t) g q v ∧ ¬ (g = f ∧ p <+: q) := by
  obtain ⟨h1, _⟩ := UIP.run_spec h0 ops h
  rw [← ht] at h1
  cases t with
  | none =>
    have e : DeleteByNet none (some n) = ((none : Option (Tree V)), false) := rfl
    rw [e]
    simp [Enumerate, Listed]
  | some t =>
    have hl : ∀ (t : Tree V), UIP.WFT t → ∀ g q v, Listed (Enumerate (some t)) g q v ↔ UIP.denT t g q = some v := by
      intro t h1 g q v
      constructor
      · rintro ⟨x, hx, hc, rfl⟩
        obtain ⟨g, q', e1, e2⟩ := UIP.enumerate_sound h1 x hx
        obtain ⟨rfl, rfl⟩ := IP.IsNet.unique hc.1 e1.1
        exact e2
      · exact UIP.enumerate_complete h1
    obtain ⟨t', d, d1, d2, d3, d4, d5⟩ := UIP.deleteByNet_ok (t := t) h1 hn
    have he : UIP.Effective t f p := by
      refine heff.imp id (.imp (by omega) ?_)
      rintro ⟨v, hv⟩
      rw [(hl t h1 f p v).1 hv]; rfl
    obtain ⟨d4, d6⟩ := d4 he
    rw [d1]
    simp only [hl t h1, hl t' d2]
    refine ⟨d6, fun e => by rw [d3 e], fun g q v => ?_⟩
    rw [d4]
    by_cases hg : g = f ∧ p <+: q
    · simp [hg]
    · rw [if_neg hg]; simp [hg]

/-- C48, the remaining case: deleting an IPv6 network below 64 bits that is not stored does nothing at all. -/
theorem C48_ineffective {t0 : Option (Tree V)} (h0 : UIP.EmptyT t0) (ops : List (Op V × Option (Fam × POp V))) (h : ∀ p ∈ ops, OpNet p.1 p.2)
    {n : IPNet} {p : List Bool} (hn : IsNet n .v6 p) (t : Option (Tree V)) (ht : t = UIP.run t0 (ops.map Prod.fst))
    (hp : p.length < 64) (hst : ∀ v, ¬ Listed (Enumerate t) .v6 p v) : DeleteByNet t (some n) = (t, false) := by
  obtain ⟨h1, _⟩ := UIP.run_spec h0 ops h
  rw [← ht] at h1
  cases t with
  | none => rfl
  | some t =>
    obtain ⟨t', d, d1, d2, d3, d4, d5⟩ := UIP.deleteByNet_ok (t := t) h1 hn
    have he : ¬ UIP.Effective t .v6 p := by
      rintro (he | he | he)
      · cases he
      · exact he hp
      · obtain ⟨v, hv⟩ := Option.isSome_iff_exists.1 he
        exact hst v (UIP.enumerate_complete h1 hv)
    have e := d5 he
    rw [d1, d3 e, e]

example : [net4 10 0 0 0 8, net4 10 1 0 0 16, net6 0x20 0x01 0 0 64, net6 0x20 0x01 0 0 127, net6 0x20 0x01 0 0 16, net6 0x20 0x01 0 0 15].map
      (fun n => ((DeleteByNet (UIP.run none sampleU) (some n)).2, (Enumerate (DeleteByNet (UIP.run none sampleU) (some n)).1).map Prod.snd)) =
    [(true, [4, 5, 6]), (true, [2, 1, 4, 5, 6]), (true, [2, 1, 3, 4]), (true, [2, 1, 3, 4, 5]), (true, [2, 1, 3]), (false, [2, 1, 3, 4, 5, 6])] := by
  decide +kernel

end Verif.Props
