import Verif.IP.Update
import Verif.Props.Iptree

/-!
# Property C43: UpdateDescendants

Trees here are the ones obtained by any interleaving of insertions, deletions and updates (`Reach`), the "stored networks"
are what Enumerate lists.
-/

namespace Verif.Props
open Verif Verif.IP
variable {V : Type} [Inhabited V] {σ : Type}

/-- Trees a program can obtain without in-place insertion. -/
inductive Reach : Option (Tree V) → Prop where
  | nil : Reach none
  | new : Reach (some NewTree)
  | insertNet {t t' n v} : Reach t → InsertNet t n v = some t' → Reach t'
  | insertIP {t t' ip v} : Reach t → InsertIP t ip v = some t' → Reach t'
  | deleteByNet {t t' n d} : Reach t → DeleteByNet t n = some (t', d) → Reach t'
  | deleteByIP {t t' ip d} : Reach t → DeleteByIP t ip = some (t', d) → Reach t'
  | update {σ : Type} {cb : σ → IPNet → V → (V × Bool) × σ} {t t' n s s'} :
      Reach t → UpdateDescendants cb t n s = some (t', s') → Reach t'

theorem Reach.wf {t : Option (Tree V)} (h : Reach t) : WFT (base t) := by
  induction h with
  | nil => exact wft_new
  | new => exact wft_new
  | @insertNet t t' n v _ hs ih =>
    obtain ⟨o, ho⟩ := OpNet.total (Op.insertNet n v)
    obtain ⟨u, h1, h2, _⟩ := step_spec ih ho
    have : u = t' := by
      have : some u = some t' := by rw [← h1, ← hs]; rfl
      exact Option.some.inj this
    exact this ▸ h2
  | @insertIP t t' ip v _ hs ih =>
    obtain ⟨o, ho⟩ := OpNet.total (Op.insertIP ip v)
    obtain ⟨u, h1, h2, _⟩ := step_spec ih ho
    have : u = t' := by
      have : some u = some t' := by rw [← h1, ← hs]; rfl
      exact Option.some.inj this
    exact this ▸ h2
  | @deleteByNet t t' n d _ hs ih =>
    obtain ⟨o, ho⟩ := OpNet.total (Op.deleteByNet (V := V) n)
    obtain ⟨u, h1, h2, _⟩ := step_spec ih ho
    have : u = t' := by
      have : some u = some t' := by rw [← h1]; simp [step, hs]
      exact Option.some.inj this
    exact this ▸ h2
  | @deleteByIP t t' ip d _ hs ih =>
    obtain ⟨o, ho⟩ := OpNet.total (Op.deleteByIP (V := V) ip)
    obtain ⟨u, h1, h2, _⟩ := step_spec ih ho
    have : u = t' := by
      have : some u = some t' := by rw [← h1]; simp [step, hs]
      exact Option.some.inj this
    exact this ▸ h2
  | @update σ cb t t' n s s' _ hs ih =>
    cases t with
    | none =>
      cases n with
      | none => simp [UpdateDescendants] at hs
      | some n =>
        simp only [UpdateDescendants] at hs
        split at hs
        · cases hs
        · split at hs
          · simp only [Option.some.injEq, Prod.mk.injEq] at hs
            exact hs.1 ▸ wft_new
          · cases hs
    | some t =>
      cases t' with
      | none => exact wft_new
      | some t' => exact updateDescendants_wf cb ih hs

/-- A listing holds the network `p` of family `f` with the value `v`. -/
def Listed (xs : List (IPNet × V)) (f : Fam) (p : List Bool) (v : V) : Prop := ∃ x ∈ xs, IsCanonNet x.1 f p ∧ x.2 = v

omit [Inhabited V] in
theorem listed_iff {t : Tree V} (h : WFT t) {f : Fam} {p : List Bool} {v : V} : Listed (Enumerate (some t)) f p v ↔ denT t f p = some v := by
  constructor
  · rintro ⟨x, hx, hc, rfl⟩
    obtain ⟨g, q, h1, h2⟩ := enumerate_sound h x hx
    obtain ⟨rfl, rfl⟩ := IsNet.unique hc.1 h1.1
    exact h2
  · exact enumerate_complete h

/-- C43 (stored target): the callback runs over exactly the strict descendants, in listing order, with key and current value,
its results replace exactly the values it asked to replace, and everything else is as before.  `σ` can be a log of the calls. -/
theorem C43_update_partial {t : Tree V} (hr : Reach (some t)) (cb : σ → IPNet → V → (V × Bool) × σ) {n : IPNet} {f : Fam} {p : List Bool}
    (hn : IsNet n f p) {v : V} (hst : Listed (Enumerate (some t)) f p v) (s : σ) :
    ∃ t' s', UpdateDescendants cb (some t) (some n) s = some (some t', s') ∧ Reach (some t') ∧
      (Enumerate (some t'), s') = updateBelow cb f p (Enumerate (some t)) s := by
  obtain ⟨t', s', h1, h2⟩ := updateDescendants_stored cb hr.wf hn (by rw [(listed_iff hr.wf).1 hst]; rfl) s
  exact ⟨t', s', h1, .update hr h1, h2⟩

/-- C43 (absent target): nothing changes and the callback does not run, unless the target has at least 64 bits and stored
networks in both its halves.  That exception is real, see `C43_false`. -/
theorem C43_absent_partial {t : Tree V} (hr : Reach (some t)) (cb : σ → IPNet → V → (V × Bool) × σ) {n : IPNet} {f : Fam} {p : List Bool}
    (hn : IsNet n f p) (hst : ∀ v, ¬ Listed (Enumerate (some t)) f p v)
    (hp : f = .v4 ∨ p.length < 64 ∨ ∃ b, ∀ q v, p ++ [b] <+: q → ¬ Listed (Enumerate (some t)) f q v) (s : σ) :
    UpdateDescendants cb (some t) (some n) s = some (some t, s) := by
  have hw : WFT t := hr.wf
  refine updateDescendants_absent cb hw hn ?_ ?_ s
  · cases hd : denT t f p with
    | none => rfl
    | some v => exact absurd ((listed_iff hw).2 hd) (hst v)
  · refine hp.imp id (.imp id ?_)
    rintro ⟨b, hb⟩ hall
    obtain ⟨q, v, h1, h2⟩ := hall b
    exact hb q v h1 ((listed_iff hw).2 h2)

/-- C43 (absent target), every case: either nothing happens, or all strict descendants are updated as if the target were stored.  The
latter needs a target of at least 64 bits with stored networks in both its halves and none outside it that shares its first 64 bits.
Which of the two then happens is not determined by the stored networks, see `C43_host_bits`. -/
theorem C43_absent_either {t : Tree V} (hr : Reach (some t)) (cb : σ → IPNet → V → (V × Bool) × σ) {n : IPNet} {f : Fam} {p : List Bool}
    (hn : IsNet n f p) (hst : ∀ v, ¬ Listed (Enumerate (some t)) f p v) (s : σ) :
    UpdateDescendants cb (some t) (some n) s = some (some t, s) ∨
    (f = .v6 ∧ 64 ≤ p.length ∧ (∀ b, ∃ q v, p ++ [b] <+: q ∧ Listed (Enumerate (some t)) f q v) ∧
      (∀ q v, 64 ≤ q.length → q.take 64 = p.take 64 → Listed (Enumerate (some t)) f q v → p <+: q) ∧
      ∃ t' s', UpdateDescendants cb (some t) (some n) s = some (some t', s') ∧ Reach (some t') ∧
        (Enumerate (some t'), s') = updateBelow cb f p (Enumerate (some t)) s) := by
  have hw : WFT t := hr.wf
  simp only [listed_iff hw] at hst ⊢
  have hd : denT t f p = none := by
    cases hd : denT t f p with
    | none => rfl
    | some v => exact absurd hd (hst v)
  rcases updateDescendants_either cb hw hn hd s with h | ⟨h1, h2, h3, h4, t', s', h5, h6⟩
  · exact .inl h
  · exact .inr ⟨h1, h2, h3, h4, t', s', h5, .update hr h5, h6⟩

omit [Inhabited V] in
/-- C43 (malformed target): nothing changes. -/
theorem C43_malformed (cb : σ → IPNet → V → (V × Bool) × σ) (t : Option (Tree V)) {n : IPNet} (hn : ∀ f p, ¬ IsNet n f p) (s : σ) :
    UpdateDescendants cb t (some n) s = some (t, s) := updateDescendants_bad cb hn s

/-- C44 with updates among the calls: InsertNet and DeleteByNet do not panic on any reachable tree, nor does UpdateDescendants
with a network. -/
theorem C44_no_panic_update {t : Tree V} (hr : Reach (some t)) :
    (∀ n v, InsertNet (some t) n v ≠ none) ∧ (∀ n, DeleteByNet (some t) n ≠ none) ∧
    ∀ (cb : σ → IPNet → V → (V × Bool) × σ) n s, UpdateDescendants cb (some t) (some n) s ≠ none := by
  refine ⟨fun n v => ?_, fun n => ?_, fun cb n s => ?_⟩
  · obtain ⟨o, ho⟩ := OpNet.total (Op.insertNet n v)
    obtain ⟨u, h1, _⟩ := step_spec hr.wf ho
    simp only [step] at h1; simp [h1]
  · obtain ⟨o, ho⟩ := OpNet.total (Op.deleteByNet (V := V) n)
    obtain ⟨u, h1, _⟩ := step_spec hr.wf ho
    intro h2; simp [step, h2] at h1
  · simp only [UpdateDescendants]
    cases v4Key n with
    | some kb => simp
    | none => cases v6Pair n <;> simp

/-- On every reachable tree, updates included, lookups answer with the longest match among the listed networks. -/
theorem C43_lookup_after {t : Tree V} (hr : Reach (some t)) {n : IPNet} {f : Fam} {p : List Bool} (hn : IsNet n f p) :
    (∃ q v, GetByNet (some t) (some n) = some (.user v) ∧ q <+: p ∧ Listed (Enumerate (some t)) f q v ∧
      ∀ q' v', q' <+: p → Listed (Enumerate (some t)) f q' v' → q'.length ≤ q.length) ∨
    (GetByNet (some t) (some n) = none ∧ ∀ q v, q <+: p → ¬ Listed (Enumerate (some t)) f q v) := by
  have hw : WFT t := hr.wf
  obtain ⟨r, h1, h2⟩ := getByNet_ok hw hn
  simp only [listed_iff hw]
  rcases h2 with ⟨q, v, rfl, e2, e3, e4⟩ | ⟨rfl, e2⟩
  · exact .inl ⟨q, v, h1, e2, e3, fun q' v' a b => e4 q' v' a b⟩
  · refine .inr ⟨h1, fun q v hq hv => ?_⟩
    rw [e2 q hq] at hv; cases hv

/-- A callback that logs the values it sees and adds 100 to the even ones. -/
def logCb (s : List Nat) (_ : IPNet) (v : Nat) : (Nat × Bool) × List Nat := ((v + 100, v % 2 == 0), s ++ [v])

/-- Stored target of 16 bits: everything strictly below is visited, including the nested trees. -/
example : (IP.run none sampleIP).bind (fun t => (UpdateDescendants logCb t (some (net6 0x20 0x01 0 0 16)) []).map fun r =>
    ((Enumerate r.1).map Prod.snd, r.2)) = some ([2, 1, 4, 5, 106], [5, 6]) := by decide +kernel
/-- Stored target of 64 bits, and an IPv4 target. -/
example : (IP.run none sampleIP).bind (fun t => (UpdateDescendants logCb t (some (net6 0x20 0x01 0 0 64)) []).map fun r =>
    ((Enumerate r.1).map Prod.snd, r.2)) = some ([2, 1, 4, 5, 106], [6]) := by decide +kernel
example : (IP.run none sampleIP).bind (fun t => (UpdateDescendants logCb t (some (net4 10 0 0 0 8)) []).map fun r =>
    ((Enumerate r.1).map Prod.snd, r.2)) = some ([2, 1, 4, 5, 6], [1]) := by decide +kernel
/-- Absent target with descendants: nothing happens. -/
example : (IP.run none sampleIP).bind (fun t => (UpdateDescendants logCb t (some (net6 0x20 0x01 0 0 15)) []).map fun r =>
    ((Enumerate r.1).map Prod.snd, r.2)) = some ([2, 1, 4, 5, 6], []) := by decide +kernel

/-- Two halves of a /64 that is not stored itself. -/
def halves : List (Op Nat) := [.insertNet (some ⟨[0x20, 1, 0, 0, 0, 0, 0, 0, 0x80, 0, 0, 0, 0, 0, 0, 0], cidrMask 65 128⟩) 2, .insertNet (some (net6 0x20 1 0 0 65)) 1]

/-- C43 is false as stated: with an absent /64 target whose halves are stored, both halves are visited (iptree/iptree.go:148 tests
the key and the length of the nested root but not whether it is a leaf). -/
theorem C43_false : ∃ t : Tree Nat, IP.run none halves = some (some t) ∧
    (∀ x ∈ Enumerate (some t), onesOf x.1.mask ≠ 64) ∧
    (UpdateDescendants logCb (some t) (some (net6 0x20 1 0 0 64)) []).map (fun r => ((Enumerate r.1).map Prod.snd, r.2)) = some ([1, 102], [1, 2]) := by
  exact ⟨_, rfl, by decide +kernel, by decide +kernel⟩

/-- C43: the address bits beyond the prefix length matter in the exception.  2001::/64 and 2001::1/64 are the same network; neither is
stored; the first is treated as stored and the second is not. -/
theorem C43_host_bits : ∃ t : Tree Nat, IP.run none halves = some (some t) ∧
    (∃ p, IsNet (net6 0x20 1 0 0 64) .v6 p ∧ IsNet ⟨[0x20, 1, 0, 0, 0, 0, 0, 0, 0, 0, 0, 0, 0, 0, 0, 1], cidrMask 64 128⟩ .v6 p) ∧
    (UpdateDescendants logCb (some t) (some (net6 0x20 1 0 0 64)) []).map Prod.snd = some [1, 2] ∧
    (UpdateDescendants logCb (some t) (some ⟨[0x20, 1, 0, 0, 0, 0, 0, 0, 0, 0, 0, 0, 0, 0, 0, 1], cidrMask 64 128⟩) []).map Prod.snd = some [] := by
  exact ⟨_, rfl, ⟨bitsBE [0x20, 1, 0, 0, 0, 0, 0, 0], ⟨rfl, by decide +kernel⟩, rfl, by decide +kernel⟩, by decide +kernel, by decide +kernel⟩

/-- A nil tree with a valid network, or a nil network, panics. -/
theorem C43_nil_panics : UpdateDescendants logCb none (some (net4 10 0 0 0 8)) [] = none ∧
    UpdateDescendants logCb (some NewTree) none [] = none := by
  exact ⟨by decide +kernel, rfl⟩

end Verif.Props
