import Verif.Chan.Model
import Verif.DomTree.Enum

/-! # What the goroutines send -/

namespace Verif.Chan
open Verif.Spec

/-- The values sent by a goroutine's code. -/
def den : {A : Type} → Gen A → List A
  | _, .skip => []
  | _, .send a => [a]
  | _, .seq g h => den g ++ den h
  | _, .range inner body => (den inner).flatMap fun b => den (body b)

/-- The values still to be sent. -/
def rem : {A : Type} → St A → List A
  | _, .prog g => den g
  | _, .seq s g => rem s ++ den g
  | _, .range inner _ body => (rem inner).flatMap fun b => den (body b)
  | _, .inBody inner _ body s => rem s ++ (rem inner).flatMap fun b => den (body b)
  | _, .fin => []

/-- A bound for the steps of code. -/
def wt : {A : Type} → Gen A → Nat
  | _, .skip => 1
  | _, .send _ => 1
  | _, .seq g h => wt g + wt h + 2
  | _, .range inner body => wt inner + ((den inner).map fun b => wt (body b) + 2).sum + 3

/-- A bound for the steps left. -/
def mu : {A : Type} → St A → Nat
  | _, .prog g => wt g
  | _, .seq s g => mu s + wt g + 1
  | _, .range inner cl body => mu inner + ((rem inner).map fun b => wt (body b) + 2).sum + (if cl then 1 else 2)
  | _, .inBody inner cl body s => mu inner + ((rem inner).map fun b => wt (body b) + 2).sum + (if cl then 1 else 2) + mu s + 1
  | _, .fin => 0

/-- Closed channels belong to finished goroutines. -/
def Ok : {A : Type} → St A → Prop
  | _, .prog _ => True
  | _, .seq s _ => Ok s
  | _, .range inner cl _ => Ok inner ∧ (cl = true → inner = .fin)
  | _, .inBody inner cl _ s => Ok inner ∧ Ok s ∧ (cl = true → inner = .fin)
  | _, .fin => True

theorem fin_no_step {A : Type} {l : Option A} {s' : St A} : ¬ Step .fin l s' := by
  intro h; cases h

theorem Step.sound {A : Type} {s s' : St A} {l : Option A} (h : Step s l s') :
    Ok s → rem s = l.toList ++ rem s' ∧ mu s' < mu s ∧ Ok s' := by
  induction h with
  | skip => simp [rem, den, mu, wt, Ok]
  | send a => simp [rem, den, mu, wt, Ok]
  | seq g h => simp [rem, den, mu, wt, Ok]
  | seqL g _ ih =>
    intro ho
    obtain ⟨h1, h2, h3⟩ := ih ho
    exact ⟨by simp [rem, h1], by simp [mu]; omega, h3⟩
  | seqR g => simp [rem, mu, Ok]
  | go inner body => simp [rem, den, mu, wt, Ok]
  | rangeIn _ ih =>
    rintro ⟨ho, hc⟩
    rename_i hs
    obtain ⟨h1, h2, h3⟩ := ih ho
    simp only [Option.toList_none, List.nil_append] at h1
    refine ⟨by simp [rem, h1], by simp only [mu, h1]; omega, h3, ?_⟩
    intro h; rw [hc h] at hs; exact absurd hs fin_no_step
  | recv _ ih =>
    rintro ⟨ho, hc⟩
    obtain ⟨h1, h2, h3⟩ := ih ho
    simp only [Option.toList_some, List.singleton_append] at h1
    refine ⟨by simp [rem, h1], by simp only [mu, h1, List.map_cons, List.sum_cons]; simp; omega, h3, by simp [Ok], by simp⟩
  | rangeClose => simp [rem, mu, Ok]
  | rangeEnd =>
    rintro ⟨ho, hc⟩
    rw [hc rfl]; simp [rem, mu, Ok]
  | bodyIn _ ih =>
    rintro ⟨ho, hs, hc⟩
    rename_i hst
    obtain ⟨h1, h2, h3⟩ := ih ho
    simp only [Option.toList_none, List.nil_append] at h1
    refine ⟨by simp [rem, h1], by simp only [mu, h1]; omega, h3, hs, ?_⟩
    intro h; rw [hc h] at hst; exact absurd hst fin_no_step
  | bodyClose => rintro ⟨_, hs, _⟩; refine ⟨by simp [rem], by simp [mu], by simp [Ok], hs, by simp⟩
  | bodyStep _ ih =>
    rintro ⟨ho, hs, hc⟩
    obtain ⟨h1, h2, h3⟩ := ih hs
    exact ⟨by simp [rem, h1], by simp only [mu]; omega, ho, h3, hc⟩
  | bodyEnd =>
    rintro ⟨ho, hs, hc⟩
    exact ⟨by simp [rem], by simp only [mu]; omega, ho, hc⟩

theorem St.progress {A : Type} (s : St A) : s = .fin ∨ ∃ l s', Step s l s' := by
  induction s with
  | prog g =>
    right
    cases g with
    | skip => exact ⟨_, _, .skip⟩
    | send a => exact ⟨_, _, .send a⟩
    | seq g h => exact ⟨_, _, .seq g h⟩
    | range i b => exact ⟨_, _, .go i b⟩
  | seq s g ih =>
    right
    rcases ih with rfl | ⟨l, s', h⟩
    · exact ⟨_, _, .seqR g⟩
    · exact ⟨_, _, .seqL g h⟩
  | range i cl body ih =>
    right
    cases cl with
    | true => exact ⟨_, _, .rangeEnd⟩
    | false =>
      rcases ih with rfl | ⟨l, s', h⟩
      · exact ⟨_, _, .rangeClose⟩
      · cases l with
        | none => exact ⟨_, _, .rangeIn h⟩
        | some b => exact ⟨_, _, .recv h⟩
  | inBody i cl body s ihi ihs =>
    right
    rcases ihs with rfl | ⟨l, s', h⟩
    · exact ⟨_, _, .bodyEnd⟩
    · exact ⟨_, _, .bodyStep h⟩
  | fin => exact .inl rfl

/-- Invariant of a system that has to send `all`. -/
structure SInv {A : Type} (all : List A) (σ : Sys A) : Prop where
  ok : Ok σ.s
  rest : σ.got ++ rem σ.s = all
  closed : σ.cl = true → σ.s = .fin
  seen : σ.seen = true → σ.cl = true

/-- Steps left, the caller included. -/
def Sys.mu {A : Type} (σ : Sys A) : Nat := Chan.mu σ.s + (if σ.cl then 0 else 1) + (if σ.seen then 0 else 1)

theorem start_inv {A : Type} (g : Gen A) : SInv (den g) (start g) := ⟨trivial, by simp [start, rem], by simp [start], by simp [start]⟩

theorem SInv.step {A : Type} {all : List A} {σ τ : Sys A} (h : SInv all σ) (hs : SysStep σ τ) : SInv all τ ∧ τ.mu < σ.mu ∧ τ.quit = σ.quit ∧ σ.got <+: τ.got := by
  cases hs with
  | tau st =>
    obtain ⟨h1, h2, h3⟩ := st.sound h.ok
    refine ⟨⟨h3, ?_, ?_, h.seen⟩, by simp only [Sys.mu]; omega, rfl, List.prefix_refl _⟩
    · have := h.rest; simp only at this; rw [h1] at this; simpa using this
    · intro hc; have := h.closed hc; simp only at this; rw [this] at st; exact absurd st fin_no_step
  | recv st =>
    obtain ⟨h1, h2, h3⟩ := st.sound h.ok
    refine ⟨⟨h3, ?_, by simp, h.seen⟩, by simp only [Sys.mu]; omega, rfl, List.prefix_append _ _⟩
    have := h.rest; simp only at this; rw [h1] at this; simpa using this
  | close => exact ⟨⟨trivial, h.rest, fun _ => rfl, by intro h; rfl⟩, by simp [Sys.mu], rfl, List.prefix_refl _⟩
  | sees => exact ⟨⟨h.ok, h.rest, h.closed, fun _ => rfl⟩, by simp [Sys.mu], rfl, List.prefix_refl _⟩

theorem SInv.runs {A : Type} {all : List A} {σ τ : Sys A} {n : Nat} (hs : Runs SysStep n σ τ) (h : SInv all σ) :
    SInv all τ ∧ τ.mu + n ≤ σ.mu ∧ τ.quit = σ.quit ∧ σ.got <+: τ.got := by
  induction hs with
  | refl => exact ⟨h, by omega, rfl, List.prefix_refl _⟩
  | step _ st ih =>
    obtain ⟨h1, h2, h3, h4⟩ := ih h
    obtain ⟨g1, g2, g3, g4⟩ := h1.step st
    exact ⟨g1, by omega, g3.trans h3, h4.trans g4⟩

theorem sys_progress {A : Type} {all : List A} {σ : Sys A} (_h : SInv all σ) (hq : σ.quit = false) (hs : σ.seen = false) : ∃ τ, SysStep σ τ := by
  obtain ⟨s, cl, got, seen, quit⟩ := σ
  simp only at hq hs
  subst hq hs
  cases cl with
  | true => exact ⟨_, .sees⟩
  | false =>
    rcases s.progress with rfl | ⟨l, s', st⟩
    · exact ⟨_, .close⟩
    · cases l with
      | none => exact ⟨_, .tau st⟩
      | some a => exact ⟨_, .recv st⟩

/-- The producer goroutines have returned and the channel is closed. -/
def Sys.Finished {A : Type} (σ : Sys A) : Prop := σ.s = .fin ∧ σ.cl = true

theorem delivers {A : Type} (g : Gen A) : Delivers SysStep (start g) Sys.got (·.seen = true) Sys.Finished (den g) where
  inOrder n σ h := by
    have := (SInv.runs h (start_inv g)).1.rest
    exact ⟨rem σ.s, this⟩
  complete n σ h hs := by
    have hi := (SInv.runs h (start_inv g)).1
    have := hi.rest
    rw [hi.closed (hi.seen hs)] at this
    simpa [rem] using this
  noLeak n σ h hs := by
    have hi := (SInv.runs h (start_inv g)).1
    exact ⟨hi.closed (hi.seen hs), hi.seen hs⟩
  noDeadlock n σ h hs := by
    obtain ⟨hi, _, hq, _⟩ := SInv.runs h (start_inv g)
    exact sys_progress hi hq (by simpa using hs)
  terminates := ⟨(start g).mu, fun n σ h => by have := (SInv.runs h (start_inv g)).2.1; omega⟩

/-- After the caller has quit it receives nothing. -/
theorem quit_got {A : Type} {σ τ : Sys A} {n : Nat} (h : Runs SysStep n σ τ) (hq : σ.quit = true) : τ.got = σ.got ∧ τ.quit = true := by
  induction h with
  | refl => exact ⟨rfl, hq⟩
  | step _ st ih =>
    obtain ⟨h1, h2⟩ := ih hq
    cases st with
    | tau _ => exact ⟨h1, h2⟩
    | recv _ => simp at h2
    | close => exact ⟨h1, h2⟩
    | sees => simp at h2

theorem Quit.inv {A : Type} {all : List A} {σ τ : Sys A} (h : SInv all σ) (hq : Quit σ τ) : SInv all τ ∧ τ.quit = true ∧ τ.got = σ.got := by
  cases hq; exact ⟨⟨h.ok, h.rest, h.closed, h.seen⟩, rfl, rfl⟩

/-- With the caller gone, a system that cannot move has finished or is blocked in a send. -/
theorem quit_stuck {A : Type} {σ : Sys A} (h : ¬ ∃ τ, SysStep σ τ) : σ.Finished ∨ σ.cl = true ∨ ∃ a s', Step σ.s (some a) s' := by
  obtain ⟨s, cl, got, seen, quit⟩ := σ
  cases cl with
  | true => exact .inr (.inl rfl)
  | false =>
    rcases s.progress with rfl | ⟨l, s', st⟩
    · exact absurd ⟨_, .close⟩ h
    · cases l with
      | none => exact absurd ⟨_, .tau st⟩ h
      | some a => exact .inr (.inr ⟨a, s', st⟩)

/-! ## The packages' goroutines send the modelled listings -/

section
open Verif.Num Verif.RB
variable {V : Type}

theorem den_numGen {w : Nat} (t : NTree w V) : den (numGen t) = Num.Enumerate t := by
  rw [Num.Enumerate]
  induction t with
  | nil => rfl
  | node n l r ihl ihr =>
    have hl : den (if l.isNil then .skip else numGen l) = Num.enumerate l := by
      cases l with
      | nil => rfl
      | node => simpa using ihl
    have hr : den (if r.isNil then .skip else numGen r) = Num.enumerate r := by
      cases r with
      | nil => rfl
      | node => simpa using ihr
    simp only [numGen, den, hl, hr, Num.enumerate]
    cases n.leaf <;> simp [den]

theorem den_rbGen (t : RTree Bytes V) : den (rbGen t) = RB.enumerate t := by
  induction t with
  | nil => rfl
  | node d l r ihl ihr => simp [rbGen, den, ihl, ihr, RB.enumerate]

theorem den_dlNodeGen {t : RTree Bytes V} : ∀ {l}, DL.enumerateN t = some l → den (dlNodeGen t) = l := by
  induction t with
  | nil => intro l h; simp [DL.enumerateN] at h; simp [dlNodeGen, den, h]
  | node d a b iha ihb =>
    intro l h
    simp only [DL.enumerateN] at h
    split at h
    · rename_i x k y h1 h2 h3
      simp only [Option.some.injEq] at h
      subst h
      simp [dlNodeGen, den, iha h1, ihb h3, h2]
    · simp at h

theorem flatMap_single {α β : Type} (l : List α) (f : α → β) : l.flatMap (fun a => [f a]) = l.map f := by
  induction l <;> simp_all

theorem den_iptreeGen (t : Option (IP.Tree V)) : den (iptreeGen t) = IP.Enumerate t := by
  cases t with
  | none => rfl
  | some t =>
    simp only [iptreeGen, den, den_numGen, IP.Enumerate, flatMap_single]
    congr 1
    congr 1
    funext n
    cases h : n.value with
    | user v => simp [IP.enum6, h, den]
    | sub s => simp only [IP.enum6, h, den, den_numGen, flatMap_single]

theorem den_uiptreeGen (t : Option (UIP.Tree V)) : den (uiptreeGen t) = UIP.Enumerate t := by
  cases t with
  | none => rfl
  | some t =>
    simp only [uiptreeGen, den, den_numGen, UIP.Enumerate, flatMap_single]
    rfl

theorem den_dlGen {t : Option (DL.Tree V)} {l} (h : DL.Enumerate t = some l) : den (dlGen t) = l := by
  cases t with
  | none =>
    have : l = [] := by simpa [DL.Enumerate, DL.rootOf, DL.enumerateN] using h.symm
    rw [this]; rfl
  | some t => exact den_dlNodeGen h

theorem listed_smaller {r : RTree Bytes (DomTree.Node V)} : ∀ {ps}, DL.enumerateN r = some ps → ∀ p ∈ ps, sizeOf p.2 < sizeOf r := by
  induction r with
  | nil => intro ps h; simp [DL.enumerateN] at h; simp [h]
  | node d a b iha ihb =>
    intro ps h p hp
    simp only [DL.enumerateN] at h
    split at h
    · rename_i x k y h1 h2 h3
      simp only [Option.some.injEq] at h
      subst h
      obtain ⟨key, node, red⟩ := d
      simp only [List.mem_append, List.mem_cons, BTree.node.sizeOf_spec, RD.mk.sizeOf_spec] at hp ⊢
      rcases hp with h | rfl | h
      · have := iha h1 p h; omega
      · simp only; omega
      · have := ihb h3 p h; omega
    · simp at h

theorem exists_bound {α : Type} (P : Nat → α → Prop) (l : List α) (h : ∀ a ∈ l, ∃ N, ∀ k, N ≤ k → P k a) :
    ∃ N, ∀ k, N ≤ k → ∀ a ∈ l, P k a := by
  induction l with
  | nil => exact ⟨0, by simp⟩
  | cons a l ih =>
    obtain ⟨N, hN⟩ := ih fun b hb => h b (List.mem_cons_of_mem _ hb)
    obtain ⟨M, hM⟩ := h a (by simp)
    refine ⟨N + M, fun k hk b hb => ?_⟩
    rcases List.mem_cons.mp hb with rfl | hb
    · exact hM k (by omega)
    · exact hN k (by omega) b hb

theorem concat_flatMap {α β : Type} (f : α → Option (List β)) (g : α → List β) : ∀ (ps : List α) (l : List β),
    DomTree.concatAll (ps.map f) = some l → (∀ p ∈ ps, ∀ x, f p = some x → g p = x) → ps.flatMap g = l := by
  intro ps
  induction ps with
  | nil => intro l h _; simpa [DomTree.concatAll] using h
  | cons p ps ih =>
    intro l h hg
    simp only [List.map_cons, DomTree.concatAll] at h
    obtain ⟨x, hx, h⟩ := Option.bind_eq_some_iff.mp h
    obtain ⟨y, hy, rfl⟩ := Option.map_eq_some_iff.mp h
    simp [hg p (by simp) x hx, ih y hy fun q hq => hg q (List.mem_cons_of_mem _ hq)]

theorem den_domGen (n : DomTree.Node V) : ∀ s, ∃ N, ∀ fuel, N ≤ fuel → ∀ l, DomTree.enumN s n = some l → den (domGen fuel s n) = l := by
  intro s
  cases hb : DL.Enumerate n.branches with
  | none => exact ⟨0, fun fuel _ l h => by rw [DomTree.enumN_eq, hb] at h; simp at h⟩
  | some ps =>
    have hsub : ∀ p ∈ ps, ∃ N, ∀ fuel, N ≤ fuel → ∀ l, DomTree.enumN (DomTree.subKey p.1 s) p.2 = some l →
        den (domGen fuel (DomTree.subKey p.1 s) p.2) = l := by
      intro p hp
      have : sizeOf p.2 < sizeOf n := by
        obtain ⟨br, val⟩ := n
        rcases br with _ | ⟨⟨r⟩⟩
        · have : ps = [] := by simpa [DL.Enumerate, DL.rootOf, DL.enumerateN, DomTree.Node.branches] using hb.symm
          rw [this] at hp; simp at hp
        · have := listed_smaller (r := r) hb p hp
          simp only [DomTree.Node.mk.sizeOf_spec, Option.some.sizeOf_spec, DL.Tree.mk.sizeOf_spec]; omega
      exact den_domGen p.2 _
    obtain ⟨N, hN⟩ := exists_bound (fun fuel p => ∀ l, DomTree.enumN (DomTree.subKey p.1 s) p.2 = some l →
      den (domGen fuel (DomTree.subKey p.1 s) p.2) = l) ps hsub
    refine ⟨N + 1, fun fuel hf l h => ?_⟩
    obtain ⟨fuel, rfl⟩ : ∃ k, fuel = k + 1 := ⟨fuel - 1, by omega⟩
    rw [DomTree.enumN_eq, hb] at h
    simp only [Option.bind_some] at h
    obtain ⟨rest, hr, rfl⟩ := Option.map_eq_some_iff.mp h
    have := concat_flatMap _ (fun p => den (domGen fuel (DomTree.subKey p.1 s) p.2)) ps rest hr fun p hp x hx => hN fuel (by omega) p hp x hx
    simp only [domGen, den, den_dlGen hb, this]
    cases n.val <;> simp [den]
termination_by sizeOf n
end

end Verif.Chan
