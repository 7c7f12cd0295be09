import Verif.Chan.Lemmas

/-! # Properties of the channels returned by Enumerate -/

namespace Verif.Props
open Verif.Chan Verif.Spec Verif.Num Verif.RB
variable {V : Type}

/-- The loop `for x := range Enumerate()` over a channel served by `g` yields exactly `l`. -/
def Yields {A : Type} (g : Gen A) (l : List A) : Prop :=
  Delivers SysStep (start g) Sys.got (·.seen = true) Sys.Finished l

/-- C49 for numtree, 32 and 64 bits. -/
theorem C49_numtree {w : Nat} (t : NTree w V) : Yields (numGen t) (Num.Enumerate t) := by
  rw [← den_numGen]; exact delivers _

/-- C49 for strtree. -/
theorem C49_strtree (t : Option (Strtree.Tree V)) : Yields (strtreeGen t) (Strtree.Enumerate t) := by
  have : den (strtreeGen t) = Strtree.Enumerate t := by
    cases t with
    | none => rfl
    | some t => exact den_rbGen t.root
  rw [← this]; exact delivers _

/-- C49 for dltree, raw labels. -/
theorem C49_dltree_raw (t : Option (DL.Tree V)) : Yields (dlRawGen t) (DL.RawEnumerate t) := by
  have : den (dlRawGen t) = DL.RawEnumerate t := by
    cases t with
    | none => rfl
    | some t => exact den_rbGen t.root
  rw [← this]; exact delivers _

/-- C49 for dltree, when no label makes the printing panic. -/
theorem C49_dltree (t : Option (DL.Tree V)) (l : List (Bytes × V)) (h : DL.Enumerate t = some l) : Yields (dlGen t) l := by
  rw [← den_dlGen h]; exact delivers _

/-- C49 for domaintree, when no label makes the printing panic.  The goroutine of each node ranges over the channel of its
branches; `fuel` is any bound for the depth of the recursion. -/
theorem C49_domaintree (n : Option (DomTree.Node V)) : ∃ N, ∀ fuel, N ≤ fuel → ∀ l, DomTree.Enumerate n = some l →
    Yields (domaintreeGen fuel n) l := by
  cases n with
  | none =>
    refine ⟨0, fun fuel _ l h => ?_⟩
    have : l = [] := by simpa [DomTree.Enumerate] using h.symm
    rw [this]; exact delivers _
  | some n =>
    obtain ⟨N, hN⟩ := den_domGen n []
    refine ⟨N, fun fuel hf l h => ?_⟩
    rw [← hN fuel hf l h]; exact delivers _

/-- C49 for iptree. -/
theorem C49_iptree (t : Option (IP.Tree V)) : Yields (iptreeGen t) (IP.Enumerate t) := by
  rw [← den_iptreeGen]; exact delivers _

/-- C49 for the generated iptree packages. -/
theorem C49_uiptree (t : Option (UIP.Tree V)) : Yields (uiptreeGen t) (UIP.Enumerate t) := by
  rw [← den_uiptreeGen]; exact delivers _

/-- C56: a caller that leaves the loop over a channel that yields `l` receives nothing more; the producers then stop moving
after finitely many steps; if the caller had received everything they return and close the channel, otherwise they never
do and end up blocked in a send for ever. -/
theorem C56_leak {A : Type} (g : Gen A) (l : List A) (hl : Yields g l) {n m : Nat} {σ σ' τ : Sys A}
    (h1 : Runs SysStep n (start g) σ) (hq : Quit σ σ') (h2 : Runs SysStep m σ' τ) :
    τ.got = σ.got ∧ (∃ N, ∀ k ρ, Runs SysStep k τ ρ → k ≤ N) ∧
    (σ.got ≠ l → ¬ τ.Finished) ∧
    ((¬ ∃ ρ, SysStep τ ρ) → (σ.got = l → τ.Finished) ∧ (σ.got ≠ l → ∃ a s', Step τ.s (some a) s')) := by
  have hall : den g = l := by
    -- the list received by a draining caller is unique
    have hd := delivers g
    have key : ∀ k (ρ : Sys A) n, Runs SysStep n (start g) ρ → ρ.mu ≤ k → den g = l := by
      intro k
      induction k with
      | zero =>
        intro ρ n hr hk
        have hs : ρ.seen = true := by
          simp only [Sys.mu] at hk
          cases h : ρ.seen
          · rw [h] at hk; simp at hk
          · rfl
        rw [← hd.complete n ρ hr hs, hl.complete n ρ hr hs]
      | succ k ih =>
        intro ρ n hr hk
        by_cases hs : ρ.seen = true
        · rw [← hd.complete n ρ hr hs, hl.complete n ρ hr hs]
        · obtain ⟨ρ', st⟩ := hl.noDeadlock n ρ hr hs
          have := ((SInv.runs hr (start_inv g)).1.step st).2.1
          exact ih ρ' (n + 1) (.step hr st) (by omega)
    exact key _ _ 0 (.refl _) (Nat.le_refl _)
  subst hall
  have hi := (SInv.runs h1 (start_inv g)).1
  obtain ⟨hi', hq', hg'⟩ := hq.inv hi
  obtain ⟨hg, hqt⟩ := quit_got h2 hq'
  obtain ⟨hiτ, hμ, _, _⟩ := SInv.runs h2 hi'
  refine ⟨hg.trans hg', ⟨τ.mu, fun k ρ hk => by have := (SInv.runs hk hiτ).2.1; omega⟩, ?_, ?_⟩
  · rintro hne ⟨hf, _⟩
    have := hiτ.rest
    rw [hf, hg, hg'] at this
    exact hne (by simpa [rem] using this)
  · intro hst
    have hcl : τ.cl = true → τ.Finished := fun h => ⟨hiτ.closed h, h⟩
    have := hiτ.rest
    rw [hg, hg'] at this
    constructor
    · intro heq
      rw [heq] at this
      have hr : rem τ.s = [] := by simpa using this
      rcases quit_stuck hst with h | h | ⟨a, s', st⟩
      · exact h
      · exact hcl h
      · have := (st.sound hiτ.ok).1
        rw [hr] at this; simp at this
    · intro hne
      have nf : ¬ τ.Finished := fun h => by rw [h.1] at this; exact hne (by simpa [rem] using this)
      rcases quit_stuck hst with h | h | h
      · exact absurd h nf
      · exact absurd (hcl h) nf
      · exact h

section Examples

/-- Two keys in a strtree: a listing of two pairs, so that a caller can leave early. -/
private def exT : Option (Strtree.Tree Nat) := some ⟨.node ⟨[97], 1, false⟩ .nil (.node ⟨[98], 2, true⟩ .nil .nil), compareBytes⟩

example : Strtree.Enumerate exT = [([97], 1), ([98], 2)] := by decide

/-- One step after which the caller can leave with nothing received. -/
example : ∃ (n : Nat) (σ σ' : Sys (Bytes × Nat)), Runs SysStep n (start (strtreeGen exT)) σ ∧ Quit σ σ' ∧ σ.got ≠ Strtree.Enumerate exT :=
  ⟨1, _, _, .step (.refl _) (.tau (.seq _ _)), .quit, by decide⟩

/-- A caller that has received the first pair and leaves: the producer is left behind. -/
example : ∃ (n : Nat) (σ σ' : Sys (Bytes × Nat)), Runs SysStep n (start (strtreeGen exT)) σ ∧ Quit σ σ' ∧ σ.got = [([97], 1)] :=
  ⟨6, _, _, .step (.step (.step (.step (.step (.step (.refl _) (.tau (.seq _ _))) (.tau (.seqL _ .skip))) (.tau (.seqR _)))
    (.tau (.seq _ _))) (.recv (.seqL _ (.send _)))) (.tau (.seqR _)), .quit, by decide⟩

/-- A domain tree with a value for "a.b" and for "b", which takes three goroutines. -/
private def exD : Option (DomTree.Node Nat) :=
  some (.mk (some ⟨.node ⟨[66], .mk (some ⟨.node ⟨[65], .mk none (some 7), false⟩ .nil .nil⟩) (some 8), false⟩ .nil .nil⟩) none)

example : DomTree.Enumerate exD = some [([98], 8), ([97, 46, 98], 7)] := by decide +kernel

/-- An iptree with an IPv4 network and an IPv6 network longer than 64 bits, which takes nested loops. -/
private def exI : Option (IP.Tree Nat) :=
  some ⟨.node ⟨0x0A000000, 8, true, 1⟩ .nil .nil,
    .node ⟨0x20010DB800000000, 64, true, .sub (.node ⟨0, 16, true, 2⟩ .nil .nil)⟩ .nil .nil⟩

example : (IP.Enumerate exI).map (·.2) = [1, 2] := by decide +kernel

end Examples
end Verif.Props
