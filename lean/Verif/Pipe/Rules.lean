import Verif.Pipe.Sound
import Verif.Heap.Touch

/-!
# Rules for pieces of code
-/

namespace Verif.Pipe
open Verif.Heap Verif.Heap.Prog

variable {D E X B α β σ : Type} {φ : Cell D → X} {pin : Pin X} {h : Heap D}

/-! ## Goroutines -/

/-- With channels `q` (and any number of further ones seen closed) the code sends `l`. -/
def Gives (pin : Pin X) (q : List (Option (List B))) (g : Gen X B) (l : List B) : Prop :=
  ∀ t : List (Option (List B)), (∀ o ∈ t, o = none) → ∃ n, g.out pin (q ++ t) = some (l, n)

/-- A piece of code that sends `l` and goes on. -/
def Emits (pin : Pin X) (w : Gen X B → Gen X B) (l : List B) : Prop :=
  ∀ q k r, Gives pin q k r → Gives pin q (w k) (l ++ r)

theorem gives_done : Gives pin ([] : List (Option (List B))) .done [] := fun t ht => ⟨0, by
  have : ∀ o ∈ [] ++ t, o = none := by simpa using ht
  rw [Gen.out, if_pos this]⟩

theorem Emits.out {w : Gen X B → Gen X B} {l : List B} (h : Emits pin w l) : ∃ n, (w .done).out pin [] = some (l, n) := by
  obtain ⟨n, hn⟩ := h [] .done [] gives_done [] (by simp)
  exact ⟨n, by simpa using hn⟩

theorem emits_id : Emits pin (fun k => k) ([] : List B) := fun _ _ _ h => h

theorem Emits.comp {w v : Gen X B → Gen X B} {l m : List B} (hw : Emits pin w l) (hv : Emits pin v m) : Emits pin (fun k => w (v k)) (l ++ m) := by
  intro q k r hk
  rw [List.append_assoc]
  exact hw q _ _ (hv q k r hk)

theorem emits_send (b : B) : Emits pin (Gen.send b) [b] := by
  intro q k r hk t ht
  obtain ⟨n, hn⟩ := hk t ht
  exact ⟨n + 1, by simp [Gen.out, hn]⟩

theorem emits_read {a : Addr} {x : X} {w : X → Gen X B → Gen X B} {l : List B} (ha : pin a = some x)
    (hw : Emits pin (w x) l) : Emits pin (fun k => .read a fun x => w x k) l := by
  intro q k r hk t ht
  obtain ⟨n, hn⟩ := hw q k r hk t ht
  exact ⟨n + 1, by simp [Gen.out, hn, ha]⟩

theorem emits_read' {a : Addr} {x : X} {r : Gen X B → X → Gen X B} {l : List B} (ha : pin a = some x)
    (hw : Emits pin (fun k => r k x) l) : Emits pin (fun k => .read a (r k)) l :=
  emits_read (w := fun x k => r k x) ha hw

theorem append_set {A : Type} {q t : List A} {i : Nat} {x : A} (h : i < q.length) : (q ++ t).set i x = q.set i x ++ t := by
  rw [List.set_append_left _ _ h]

theorem gives_range {ι : Type} {e : ι → B} {i : Nat} {body : B → Gen X B → Gen X B} {o : ι → List B} {f : Nat} {k : Gen X B} {r : List B} :
    ∀ {l : List ι} {q : List (Option (List B))}, (∀ b ∈ l, Emits pin (body (e b)) (o b)) → l.length < f → q[i]? = some (some (l.map e)) →
    Gives pin (q.set i none) k r → Gives pin q (Gen.range i body f k) (l.flatMap o ++ r) := by
  intro l
  induction l generalizing f with
  | nil =>
    intro q _ hf hi hk t ht
    cases f with
    | zero => simp at hf
    | succ f =>
      have hlt := (List.getElem?_eq_some_iff.1 hi).1
      obtain ⟨n, hn⟩ := hk t ht
      exact ⟨n + 1, by simp [Gen.range, Gen.out, List.getElem?_append_left hlt, hi, append_set hlt, hn]⟩
  | cons b l ih =>
    intro q hb hf hi hk t ht
    cases f with
    | zero => simp at hf
    | succ f =>
      have hlt := (List.getElem?_eq_some_iff.1 hi).1
      have h1 := ih (f := f) (q := q.set i (some (l.map e))) (fun b hb' => hb b (by simp [hb'])) (by simp at hf; omega) (by simp [hlt]) (by simpa using hk)
      obtain ⟨n, hn⟩ := hb b (by simp) _ _ _ h1 t ht
      refine ⟨n + 1, ?_⟩
      simp only [Gen.range, Gen.out, List.getElem?_append_left hlt, hi, append_set hlt, hn, List.map_cons]
      simp

/-- `for b := range x.Enumerate() { body(b) }`, where `x.Enumerate()` starts `g`. -/
def Gen.rangeGo (g : Gen X B) (body : B → Gen X B → Gen X B) (f : Nat) (k : Gen X B) : Gen X B := .go g fun i => Gen.range i body f k

theorem emits_rangeGo {ι : Type} {e : ι → B} {g : Gen X B} {body : B → Gen X B → Gen X B} {o : ι → List B} {f : Nat} {l : List ι} {n : Nat}
    (hg : g.out pin [] = some (l.map e, n)) (hb : ∀ b ∈ l, Emits pin (body (e b)) (o b)) (hf : l.length < f) : Emits pin (Gen.rangeGo g body f) (l.flatMap o) := by
  intro q k r hk t ht
  have h1 := gives_range (q := q ++ t ++ [some (l.map e)]) (i := (q ++ t).length) hb hf (by simp) (k := k) (r := r) (by
    rw [List.set_append_right _ _ (Nat.le_refl _), Nat.sub_self, List.append_assoc]
    intro u hu
    rw [List.append_assoc]
    refine hk _ fun o ho => ?_
    simp only [List.set_cons_zero, List.append_assoc, List.cons_append, List.nil_append, List.mem_append, List.mem_cons] at ho
    rcases ho with ho | rfl | ho
    · exact ht o ho
    · rfl
    · exact hu o ho)
  obtain ⟨m, hm⟩ := h1 [] (by simp)
  rw [List.append_nil] at hm
  exact ⟨m + n + 1, by simp only [Gen.rangeGo, Gen.out, hg, Option.bind_some, hm, Option.map_some]⟩

/-! ## The caller -/

/-- With channels `q` (and any number of further ones seen closed) the caller ends in `Q` and writes nothing below `base`. -/
def DoesIn (base : Nat) (φ : Cell D → X) (Q : α → Heap D → Prop) (q : Chans X B) (m : Main D X B α) (h : Heap D) : Prop :=
  ∀ t : Chans X B, (∀ o ∈ t, o = none) → ∃ N, m.wpn φ base Q N (q ++ t) h

/-- The same without the last. -/
abbrev Does (φ : Cell D → X) (Q : α → Heap D → Prop) (q : Chans X B) (m : Main D X B α) (h : Heap D) : Prop := DoesIn 0 φ Q q m h

variable {base : Nat} {Q : α → Heap D → Prop}

theorem DoesIn.ends {m : Main D X B α} (hm : DoesIn base φ Q [] m h) : Ends φ m h Q := by
  obtain ⟨N, hN⟩ := hm [] (by simp)
  exact ends_of hN

theorem DoesIn.writes {m : Main D X B α} (hm : DoesIn base φ Q [] m h) {n : Nat} {s : Sys D X B α} (hr : Spec.Runs (Step φ) n ⟨h, m, []⟩ s) {a : Addr} {c : Cell D}
    {k : Main D X B α} (hw : s.main = .write a c k) : base ≤ a := by
  obtain ⟨N, hN⟩ := hm [] (by simp)
  exact writes_of hN hr hw

theorem does_ret {x : α} (hx : Q x h) : DoesIn base φ Q ([] : Chans X B) (.ret x) h := fun t ht => ⟨0, by simpa using ht, hx⟩

theorem does_read {q : Chans X B} {a : Addr} {c : Cell D} {k : Cell D → Main D X B α} (hc : h.mem a = some c) (hk : DoesIn base φ Q q (k c) h) :
    DoesIn base φ Q q (.read a k) h := by
  intro t ht
  obtain ⟨N, hN⟩ := hk t ht
  exact ⟨N + 1, c, N, hc, rfl, hN⟩

/-- Goroutines under way read nothing in `W`. -/
def Avoids (q : Chans X B) (W : Addr → Prop) : Prop := ∀ p l a, some (p, l) ∈ q → W a → p a = none

theorem mem_append_closed {q t : Chans X B} (ht : ∀ o ∈ t, o = none) {p : Pin X} {l : List B} (h : some (p, l) ∈ q ++ t) : some (p, l) ∈ q := by
  rcases List.mem_append.1 h with h | h
  · exact h
  · exact absurd (ht _ h) (by simp)

/-- A program that writes only what goroutines do not read. -/
theorem does_prog {q : Chans X B} {W : Addr → Prop} {p : Prog D β} {R : β → Heap D → Prop} {k : β → Main D X B α} (hp : wp W p R h)
    (hW : Avoids q W) (hB : ∀ a, W a → base ≤ a) (hk : ∀ x h', R x h' → DoesIn base φ Q q (k x) h') : DoesIn base φ Q q (.prog p k) h := by
  intro t ht
  induction p generalizing h with
  | ret x => exact hk x h hp t ht
  | stop e => exact hp.elim
  | read a p ih =>
    obtain ⟨c, h1, h2⟩ := hp
    obtain ⟨N, hN⟩ := ih c h2
    exact ⟨N + 1, c, N, h1, rfl, hN⟩
  | write a c p ih =>
    obtain ⟨N, hN⟩ := ih hp.2.2
    refine ⟨N + 1, hB a hp.1, fun p' l x hm hx => ?_, N, rfl, hN⟩
    rw [hW p' l a (mem_append_closed ht hm) hp.1] at hx
    cases hx
  | alloc c p ih =>
    obtain ⟨N, hN⟩ := ih _ hp
    exact ⟨N + 1, N, rfl, hN⟩

/-- The channels `q'` are those of `q`, perhaps further used, and one of a goroutine that reads `pin`. -/
def Within (q : Chans X B) (pin : Pin X) (q' : Chans X B) : Prop := ∀ p l, some (p, l) ∈ q' → p = pin ∨ ∃ l', some (p, l') ∈ q

theorem Within.avoids {q q' : Chans X B} (hq : Within q pin q') {W : Addr → Prop} (h1 : Avoids q W) (h2 : ∀ a, W a → pin a = none) : Avoids q' W := by
  intro p l a hp ha
  rcases hq p l hp with rfl | ⟨l', hl⟩
  · exact h2 a ha
  · exact h1 p l' a hl ha

theorem does_range {q q0 : Chans X B} {i : Nat} {body : B → σ → (σ → Main D X B α) → Main D X B α} {f : Nat} {k : σ → Main D X B α} {l : List B} {s : σ}
    {R : List B → σ → Heap D → Prop} (hf : l.length < f) (hi : q[i]? = some (some (pin, l))) (hq : Within q0 pin q) (h1 : R l s h)
    (hbody : ∀ b l s h q' (k : σ → Main D X B α), Within q0 pin q' → R (b :: l) s h → (∀ s' h', R l s' h' → DoesIn base φ Q q' (k s') h') → DoesIn base φ Q q' (body b s k) h)
    (hk : ∀ s' h', R [] s' h' → DoesIn base φ Q (q.set i none) (k s') h') : DoesIn base φ Q q (Main.range i body f s k) h := by
  have hlt := (List.getElem?_eq_some_iff.1 hi).1
  induction l generalizing f q s h with
  | nil =>
    cases f with
    | zero => simp at hf
    | succ f =>
      intro t ht
      obtain ⟨N, hN⟩ := hk s h h1 t ht
      refine ⟨N + 1, .inr (.inl ⟨pin, N, by rw [List.getElem?_append_left hlt, hi], rfl, ?_⟩)⟩
      rw [append_set hlt]
      exact hN
  | cons b l ih =>
    cases f with
    | zero => simp at hf
    | succ f =>
      intro t ht
      have hw : Within q0 pin (q.set i (some (pin, l))) := by
        intro p l' hp
        rcases List.mem_or_eq_of_mem_set hp with hp | hp
        · exact hq p l' hp
        · cases hp; exact .inl rfl
      have := hbody b l s h _ (fun s => Main.range i body f s k) hw h1 fun s' h' hr =>
        ih (f := f) (q := q.set i (some (pin, l))) (by simp at hf; omega) (by simp [hlt]) hw hr (by simpa using hk) (by simpa using hlt)
      obtain ⟨N, hN⟩ := this t ht
      refine ⟨N + 1, .inl ⟨pin, b, l, N, by rw [List.getElem?_append_left hlt, hi], rfl, ?_⟩⟩
      rw [append_set hlt]
      exact hN

/-- `for b := range x.Enumerate() { ... }` of the caller. -/
def Main.rangeGo (g : Gen X B) (body : B → σ → (σ → Main D X B α) → Main D X B α) (f : Nat) (s : σ) (k : σ → Main D X B α) : Main D X B α :=
  .go g fun i => Main.range i body f s k

/-- While the loop goes on, the fields the goroutine reads (`pin`) must stay. -/
theorem does_rangeGo {q : Chans X B} {g : Gen X B} {body : B → σ → (σ → Main D X B α) → Main D X B α} {f : Nat} {k : σ → Main D X B α} {l : List B} {n : Nat} {s : σ}
    {R : List B → σ → Heap D → Prop} (hp : Holds φ pin h) (hg : g.out pin [] = some (l, n)) (hf : l.length < f) (h1 : R l s h)
    (hbody : ∀ b l s h q' (k : σ → Main D X B α), Within q pin q' → R (b :: l) s h → (∀ s' h', R l s' h' → DoesIn base φ Q q' (k s') h') → DoesIn base φ Q q' (body b s k) h)
    (hk : ∀ s' h', R [] s' h' → DoesIn base φ Q q (k s') h') : DoesIn base φ Q q (Main.rangeGo g body f s k) h := by
  intro t ht
  have hw : Within q pin (q ++ t ++ [some (pin, l)]) := by
    intro p l' hp
    rcases List.mem_append.1 hp with hp | hp
    · exact .inr ⟨l', mem_append_closed ht hp⟩
    · simp only [List.mem_singleton, Option.some.injEq, Prod.mk.injEq] at hp
      exact .inl hp.1
  have := does_range (q := q ++ t ++ [some (pin, l)]) (i := (q ++ t).length) (k := k) hf (by simp) hw h1 hbody (fun s' h' hr => by
    rw [List.set_append_right _ _ (Nat.le_refl _), Nat.sub_self]
    intro u hu
    rw [List.append_assoc, List.append_assoc]
    refine hk s' h' hr _ fun o ho => ?_
    simp only [List.set_cons_zero, List.cons_append, List.nil_append, List.mem_append, List.mem_cons] at ho
    rcases ho with ho | rfl | ho
    · exact ht o ho
    · rfl
    · exact hu o ho)
  obtain ⟨N, hN⟩ := this [] (by simp)
  rw [List.append_nil] at hN
  exact ⟨N + n + 1, pin, l, n, N, hp, hg, rfl, hN⟩

/-! ## What a goroutine needs -/

open Classical in
/-- The fields at the addresses `F` in `h`. -/
noncomputable def pinOf (φ : Cell D → X) (h : Heap D) (F : Addr → Prop) : Pin X := fun a => if F a then (h.mem a).map φ else none

theorem pinOf_some {F : Addr → Prop} {a : Addr} {c : Cell D} (ha : F a) (hc : h.mem a = some c) : pinOf φ h F a = some (φ c) := by
  simp [pinOf, ha, hc]

theorem pinOf_none {F : Addr → Prop} {a : Addr} (ha : ¬ F a) : pinOf φ h F a = none := by simp [pinOf, ha]

theorem pinOf_holds {F : Addr → Prop} (hF : ∀ a, F a → a < h.next) : Holds φ (pinOf φ h F) h := by
  intro a x hx
  simp only [pinOf] at hx
  split at hx
  · rename_i ha
    obtain ⟨c, h1, h2⟩ := Option.map_eq_some_iff.1 hx
    exact ⟨hF a ha, c, h1, h2⟩
  · cases hx

end Verif.Pipe
