import Verif.Heap.Relay

/-!
# Goroutines that hand trees to each other: the invariant

Every tree held or on its way has a set of addresses; those of different origin are disjoint; the nodes a call has made belong to its goroutine alone until the call ends.
-/

namespace Verif.Heap
open Prog
variable {D O R K A M T : Type} {I : OImpl D O R}

theorem Alike.begin {Z : I.Blind} {AR : (Addr → Addr → Prop) → A → A → Prop} {h : Heap D} {e : Item R O} (ha : Alike Z h e) (c : R → Prog D (R ⊕ A)) (ip : Bool) (Q : R ⊕ A → Heap D → Prop)
    (hc : ∀ σ, One σ → ∀ r r', Z.rootR σ r r' → (c r).Sim σ (Z.cellR σ) (SumR Z AR σ) (c r'))
    (hw : ∀ g r F, I.Obj g r e.ops F → ∃ W, wp W (c r) Q g ∧ (ip = false → ∀ b, W b → g.next ≤ b)) : Aloft Z AR ip (c e.root) h e.foot (fun _ => False) Q := by
  obtain ⟨ρ, g, r, F, h1, h2, h3, h4, h5, h6⟩ := ha
  obtain ⟨W, w1, w2⟩ := hw g r F h5
  exact ⟨ρ, c r, g, g.next, W, fun σ hσ ho => hc σ ho _ _ (Z.root_mono hσ h4), h1, h2, h3, w1, Nat.le_refl _, fun a b k => .inl ⟨(h2 a b k).2, h6 a b k⟩, w2⟩

theorem sim_inl {Z : I.Blind} {AR : (Addr → Addr → Prop) → A → A → Prop} {σ : Addr → Addr → Prop} {p q : Prog D R} (h : p.Sim σ (Z.cellR σ) (Z.rootR σ) q) :
    (p >>= fun r => pure (.inl r)).Sim σ (Z.cellR σ) (SumR Z AR σ) (q >>= fun r => pure (.inl r)) := sim_bind h fun _ _ hxy => sim_pure hxy

theorem aloft_fresh {n : Nat} (hI : I.Lawful n) {Z : I.Blind} {AR : (Addr → Addr → Prop) → A → A → Prop} {h : Heap D} :
    Aloft Z AR false (I.fresh >>= fun r => pure (.inl r)) h (fun _ => False) (fun _ => False) fun x g => ∃ r F, x = .inl r ∧ I.Obj g r [] F := by
  refine ⟨fun _ _ => False, I.fresh >>= fun r => pure (.inl r), .empty, (Heap.empty : Heap D).next, fun a => (Heap.empty : Heap D).next ≤ a, fun σ _ ho => sim_inl (Z.fresh_r σ ho),
    fun _ _ _ _ k => k.elim, fun _ _ k => k.elim, fun _ _ k => k.elim, ?_, Nat.le_refl _, fun _ _ k => k.elim, fun _ b k => k⟩
  simp only [wp_bind, wp_pure]
  refine wp_conseq (hI.fresh_ok _) ?_
  rintro r g ⟨F, h1, _⟩
  exact ⟨r, F, rfl, h1⟩

/-- What a call under way will come to. -/
def What.Task (I : OImpl D O R) (P : K → List O → A → Prop) (es : List (Item R O)) : What O K A M → (Addr → Prop) → Bool → (R ⊕ A → Heap D → Prop) → Prop
  | .call .fresh _, F, ip, Q => F = (fun _ => False) ∧ ip = false ∧ Q = fun x g => ∃ r F', x = .inl r ∧ I.Obj g r [] F'
  | .call (.cow i o) _, F, ip, Q => ∃ e, es[i]? = some e ∧ F = e.foot ∧ ip = false ∧ Q = fun x g => ∃ r F', x = .inl r ∧ I.Obj g r (o :: e.ops) F'
  | .call (.inp i o) _, F, ip, Q => ∃ e, es[i]? = some e ∧ F = e.foot ∧ ip = true ∧ Q = fun x g => ∃ r F', x = .inl r ∧ I.Obj g r (o :: e.ops) F'
  | .call (.drop _) _, _, _, _ => False
  | .ask i q _, F, ip, Q => ∃ e, es[i]? = some e ∧ F = e.foot ∧ ip = false ∧ Q = fun x _ => ∃ a, x = .inr a ∧ P q e.ops a

theorem What.Task.foot {P : K → List O → A → Prop} {es : List (Item R O)} {x : What O K A M} {F : Addr → Prop} {ip : Bool} {Q : R ⊕ A → Heap D → Prop} (ht : x.Task I P es F ip Q) {a : Addr}
    (ha : F a) : ∃ e ∈ es, e.foot a := by
  cases x with
  | call op k =>
    cases op with
    | fresh => obtain ⟨rfl, _⟩ := ht; exact ha.elim
    | cow i o => obtain ⟨e, he, rfl, _⟩ := ht; exact ⟨e, List.mem_of_getElem? he, ha⟩
    | inp i o => obtain ⟨e, he, rfl, _⟩ := ht; exact ⟨e, List.mem_of_getElem? he, ha⟩
    | drop i => exact ht.elim
  | ask i q k => obtain ⟨e, he, rfl, _⟩ := ht; exact ⟨e, List.mem_of_getElem? he, ha⟩

theorem What.Task.inplace {P : K → List O → A → Prop} {es : List (Item R O)} {x : What O K A M} {F : Addr → Prop} {Q : R ⊕ A → Heap D → Prop} (ht : x.Task I P es F true Q) :
    ∃ i o k e, x = .call (.inp i o) k ∧ es[i]? = some e ∧ F = e.foot := by
  cases x with
  | call op k =>
    cases op with
    | fresh => exact Bool.noConfusion ht.2.1
    | cow i o => obtain ⟨e, _, _, h, _⟩ := ht; exact Bool.noConfusion h
    | inp i o => obtain ⟨e, he, rfl, _⟩ := ht; exact ⟨i, o, k, e, rfl, he, rfl⟩
    | drop i => exact ht.elim
  | ask i q k => obtain ⟨e, _, _, h, _⟩ := ht; exact Bool.noConfusion h

/-- The tree a call works on in place. -/
def What.target : What O K A M → Option Nat
  | .call (.inp i _) _ => some i
  | _ => none

def Doing.target : Doing D O R K A M → Option Nat
  | .busy _ _ x => x.target
  | .idle _ _ => none

/-- The `i`-th tree of `t` shares its origin with no other. -/
def Sole (E : T → List (Item R O)) (B : M → List (Item R O)) (t : T) (i : Nat) (e : Item R O) : Prop :=
  (∀ j f, j ≠ i → (E t)[j]? = some f → f.org ≠ e.org) ∧ (∀ u, u ≠ t → ∀ f ∈ E u, f.org ≠ e.org) ∧ ∀ m, ∀ f ∈ B m, f.org ≠ e.org

/-- Held by a goroutine or on its way. -/
def Within (E : T → List (Item R O)) (B : M → List (Item R O)) (e : Item R O) : Prop := (∃ t, e ∈ E t) ∨ ∃ m, e ∈ B m

structure RInv (Z : I.Blind) (AR : (Addr → Addr → Prop) → A → A → Prop) (P : K → List O → A → Prop) (n : Nat) (w : Relay D O R K A M T) (E : T → List (Item R O)) (B : M → List (Item R O))
    (N : T → Addr → Prop) : Prop where
  roots : ∀ t, (w.gor t).roots = (E t).map (·.root)
  held : ∀ t, w.held t = (E t).map fun e => (e.org, e.ops)
  mail : ∀ m, w.mail m = (B m).map (·.root)
  post : ∀ m, w.post m = (B m).map fun e => (e.org, e.ops)
  good : ∀ t (i : Nat) e, (E t)[i]? = some e → (w.gor t).target ≠ some i → Alike Z w.heap e
  sent : ∀ m, ∀ e ∈ B m, Alike Z w.heap e
  size : ∀ e, Within E B e → (∀ a, e.foot a → a < w.heap.next) ∧ e.org < w.next ∧ e.ops.length ≤ n
  disj : ∀ e f, Within E B e → Within E B f → e.org ≠ f.org → ∀ a, e.foot a → ¬ f.foot a
  new : ∀ t a, N t a → a < w.heap.next ∧ (∀ e, Within E B e → ¬ e.foot a) ∧ ∀ u, u ≠ t → ¬ N u a
  task : ∀ t p rs x, w.gor t = .busy p rs x → ∃ F ip Q, x.Task I P (E t) F ip Q ∧ Aloft Z AR ip p w.heap F (N t) Q
  sole : ∀ t p rs i o k e, w.gor t = .busy p rs (.call (.inp i o) k) → (E t)[i]? = some e → Sole E B t i e
  log : ∀ t q l a, (q, l, a) ∈ w.log t → P q l a

variable {Z : I.Blind} {AR : (Addr → Addr → Prop) → A → A → Prop} {P : K → List O → A → Prop} {n : Nat} {w : Relay D O R K A M T} {E : T → List (Item R O)} {B : M → List (Item R O)}
  {N : T → Addr → Prop}

/-- The cells a memory access of `t` may change are in no tree but one it works on in place, and in no call of another goroutine. -/
theorem RInv.apart (hi : RInv Z AR P n w E B N) {t : T} {p : Prog D (R ⊕ A)} {rs : List R} {x : What O K A M} (hb : w.gor t = .busy p rs x) {F : Addr → Prop} {ip : Bool}
    {Q : R ⊕ A → Heap D → Prop} (ht : x.Task I P (E t) F ip Q) {a : Addr} (ha : N t a ∨ (ip = true ∧ F a)) :
    (∀ u (j : Nat) f, (E u)[j]? = some f → (u = t → (w.gor t).target ≠ some j) → ¬ f.foot a) ∧ (∀ m, ∀ f ∈ B m, ¬ f.foot a) ∧ ∀ u, u ≠ t → ¬ N u a := by
  rcases ha with ha | ⟨rfl, ha⟩
  · obtain ⟨h1, h2, h3⟩ := hi.new t a ha
    exact ⟨fun u j f hf _ => h2 f (.inl ⟨u, List.mem_of_getElem? hf⟩), fun m f hf => h2 f (.inr ⟨m, hf⟩), h3⟩
  · obtain ⟨i, o, k, e, rfl, he, rfl⟩ := ht.inplace
    obtain ⟨s1, s2, s3⟩ := hi.sole t p rs i o k e hb he
    have hE : Within E B e := .inl ⟨t, List.mem_of_getElem? he⟩
    refine ⟨fun u j f hf hj hfa => ?_, fun m f hf hfa => hi.disj f e (.inr ⟨m, hf⟩) hE (s3 m f hf) a hfa ha, fun u hu hN => (hi.new u a hN).2.1 e hE ha⟩
    refine hi.disj f e (.inl ⟨u, List.mem_of_getElem? hf⟩) hE ?_ a hfa ha
    by_cases hu : u = t
    · subst hu
      refine s1 j f (fun e => hj rfl ?_) hf
      rw [hb, e]; rfl
    · exact s2 u hu f (List.mem_of_getElem? hf)

section
variable [DecidableEq T] [DecidableEq M]

omit [DecidableEq M] in
/-- A memory access. -/
theorem RInv.access (hi : RInv Z AR P n w E B N) {t : T} {p p' : Prog D (R ⊕ A)} {rs : List R} {x : What O K A M} (hb : w.gor t = .busy p rs x) {h' : Heap D}
    (hs : p.step w.heap = some (p', h')) :
    RInv Z AR P n { w.go t (.busy p' rs x) with heap := h' } E B (setAt N t fun a => N t a ∨ (w.heap.next ≤ a ∧ a < h'.next)) ∧
      ∀ u, u ≠ t → ∀ q rs' y, w.gor u = .busy q rs' y → q.left h' = q.left w.heap := by
  obtain ⟨F, ip, Q, ht, ha⟩ := hi.task t p rs x hb
  obtain ⟨a1, a2, a3⟩ := ha.step hs
  have hg : ∀ u, ({ w.go t (.busy p' rs x) with heap := h' } : Relay D O R K A M T).gor u = if u = t then .busy p' rs x else w.gor u := fun u => rfl
  have htg : ∀ u, (({ w.go t (.busy p' rs x) with heap := h' } : Relay D O R K A M T).gor u).target = (w.gor u).target := fun u => by
    rw [hg]
    by_cases e : u = t
    · rw [if_pos e, e, hb]; rfl
    · rw [if_neg e]
  have keepE : ∀ u (j : Nat) f, (E u)[j]? = some f → (u = t → (w.gor t).target ≠ some j) → ∀ a, a < w.heap.next → f.foot a → h'.mem a = w.heap.mem a := fun u j f hf hj a hl hfa => by
    rcases a3 a hl with k | k
    · exact k
    · exact ((hi.apart hb ht k).1 u j f hf hj hfa).elim
  have keepU : ∀ u, u ≠ t → ∀ q rs' y, w.gor u = .busy q rs' y → ∀ F' ip' Q', y.Task I P (E u) F' ip' Q' → ∀ a, a < w.heap.next → F' a ∨ N u a → h'.mem a = w.heap.mem a := by
    intro u hu q rs' y hy F' ip' Q' hT a hl hFN
    rcases hFN with hF | hN
    · obtain ⟨f, hf, hfa⟩ := hT.foot hF
      obtain ⟨j, hj⟩ := List.getElem?_of_mem hf
      exact keepE u j f hj (fun e => (hu e).elim) a hl hfa
    · rcases a3 a hl with k | k
      · exact k
      · exact ((hi.apart hb ht k).2.2 u hu hN).elim
  refine ⟨⟨fun u => ?_, hi.held, hi.mail, hi.post, fun u j f hf hj => ?_, fun m f hf => ?_, fun f hf => ?_, hi.disj, fun u a hN => ?_, fun u q rs' y hy => ?_, fun u q rs' i o k e hy he => ?_, hi.log⟩,
    fun u hu q rs' y hy => ?_⟩
  · rw [hg]
    by_cases e : u = t
    · rw [if_pos e, e, ← hi.roots t, hb]; rfl
    · rw [if_neg e]; exact hi.roots u
  · rw [htg] at hj
    exact (hi.good u j f hf hj).frame a2 (keepE u j f hf fun e => e ▸ hj)
  · refine (hi.sent m f hf).frame a2 fun a hl hfa => ?_
    rcases a3 a hl with k | k
    · exact k
    · exact ((hi.apart hb ht k).2.1 m f hf hfa).elim
  · obtain ⟨s1, s2, s3⟩ := hi.size f hf
    exact ⟨fun a ha => Nat.lt_of_lt_of_le (s1 a ha) a2, s2, s3⟩
  · simp only [setAt] at hN ⊢
    by_cases e : u = t
    · subst e
      rw [if_pos rfl] at hN
      rcases hN with hN | hN
      · obtain ⟨n1, n2, n3⟩ := hi.new u a hN
        refine ⟨Nat.lt_of_lt_of_le n1 a2, n2, fun v hv => ?_⟩
        rw [if_neg hv]; exact n3 v hv
      · refine ⟨hN.2, fun f hf hfa => ?_, fun v hv hNv => ?_⟩
        · have := (hi.size f hf).1 a hfa; omega
        · rw [if_neg hv] at hNv
          have := (hi.new v a hNv).1; omega
    · rw [if_neg e] at hN
      obtain ⟨n1, n2, n3⟩ := hi.new u a hN
      refine ⟨Nat.lt_of_lt_of_le n1 a2, n2, fun v hv => ?_⟩
      by_cases e' : v = t
      · rw [if_pos e']
        rintro (k | k)
        · exact n3 t (e' ▸ hv) k
        · omega
      · rw [if_neg e']; exact n3 v hv
  · rw [hg] at hy
    simp only [setAt]
    by_cases e : u = t
    · rw [if_pos e] at hy
      cases hy
      subst e
      rw [if_pos rfl]
      exact ⟨F, ip, Q, ht, a1⟩
    · rw [if_neg e] at hy ⊢
      obtain ⟨F', ip', Q', hT, hA⟩ := hi.task u q rs' y hy
      exact ⟨F', ip', Q', hT, hA.frame a2 (keepU u e q rs' y hy F' ip' Q' hT)⟩
  · rw [hg] at hy
    by_cases e : u = t
    · rw [if_pos e] at hy
      cases hy
      subst e
      exact hi.sole u p _ i o k _ hb he
    · rw [if_neg e] at hy
      exact hi.sole u q rs' i o k _ hy he
  · obtain ⟨F', ip', Q', hT, hA⟩ := hi.task u q rs' y hy
    exact hA.left a2 (keepU u hu q rs' y hy F' ip' Q' hT)

omit [DecidableEq M] in
/-- A turn without a memory access: the trees of `t` and those on their way change, at most one is new. -/
theorem RInv.turn (hi : RInv Z AR P n w E B N) {w' : Relay D O R K A M T} {t : T} (es : List (Item R O)) (B' : M → List (Item R O)) (new : Option (Item R O)) (hheap : w'.heap = w.heap)
    (hgor : ∀ u, u ≠ t → w'.gor u = w.gor u) (hnext : w.next ≤ w'.next) (hlog : ∀ u q l a, (q, l, a) ∈ w'.log u → P q l a)
    (hroots : (w'.gor t).roots = es.map (·.root)) (hheld : ∀ u, w'.held u = (setAt E t es u).map fun e => (e.org, e.ops))
    (hmail : ∀ m, w'.mail m = (B' m).map (·.root)) (hpost : ∀ m, w'.post m = (B' m).map fun e => (e.org, e.ops))
    (hsrc : ∀ e, (e ∈ es ∨ ∃ m, e ∈ B' m) → (e ∈ E t ∨ ∃ m, e ∈ B m) ∨ new = some e)
    (hnew : ∀ e, new = some e → (∀ a, e.foot a → (∃ f ∈ E t, f.org = e.org ∧ f.foot a) ∨ N t a) ∧ ((∃ f ∈ E t, f.org = e.org) ∨ w.next ≤ e.org) ∧ e.org < w'.next ∧ e.ops.length ≤ n + 1)
    (hgood : ∀ (i : Nat) e, es[i]? = some e → (w'.gor t).target ≠ some i → Alike Z w.heap e) (hsent : ∀ m, ∀ e ∈ B' m, Alike Z w.heap e)
    (htask : ∀ p rs x, w'.gor t = .busy p rs x → ∃ F ip Q, x.Task I P es F ip Q ∧ Aloft Z AR ip p w.heap F (fun _ => False) Q)
    (hsole : ∀ p rs i o k e, w'.gor t = .busy p rs (.call (.inp i o) k) → es[i]? = some e → Sole (setAt E t es) B' t i e) :
    RInv Z AR P (n + 1) w' (setAt E t es) B' (setAt N t fun _ => False) := by
  have hEt : setAt E t es t = es := if_pos rfl
  have hEu : ∀ u, u ≠ t → setAt E t es u = E u := fun u hu => if_neg hu
  have hNt : ∀ a, ¬ setAt N t (fun _ => False) t a := fun a => by simp [setAt]
  have hNu : ∀ u, u ≠ t → setAt N t (fun _ => False) u = N u := fun u hu => if_neg hu
  have hW : ∀ e, Within (setAt E t es) B' e → Within E B e ∨ new = some e := fun e he => by
    rcases he with ⟨u, hu⟩ | ⟨m, hm⟩
    · by_cases h : u = t
      · subst h
        rw [hEt] at hu
        exact (hsrc e (.inl hu)).imp (fun k => k.imp (fun k => ⟨u, k⟩) id) id
      · rw [hEu u h] at hu; exact .inl (.inl ⟨u, hu⟩)
    · exact (hsrc e (.inr ⟨m, hm⟩)).imp (fun k => k.imp (fun k => ⟨t, k⟩) id) id
  -- a new item against an old one of another origin
  have hdn : ∀ e f, new = some e → Within E B f → f.org ≠ e.org → ∀ a, e.foot a → ¬ f.foot a := fun e f he hf hne a hea hfa => by
    rcases (hnew e he).1 a hea with ⟨f', hf', h1, h2⟩ | h
    · exact hi.disj f f' hf (.inl ⟨t, hf'⟩) (fun k => hne (k.trans h1)) a hfa h2
    · exact (hi.new t a h).2.1 f hf hfa
  have hsize : ∀ e, Within (setAt E t es) B' e → (∀ a, e.foot a → a < w.heap.next) ∧ e.org < w'.next ∧ e.ops.length ≤ n + 1 := fun e he => by
    rcases hW e he with h | h
    · obtain ⟨s1, s2, s3⟩ := hi.size e h
      exact ⟨s1, by omega, by omega⟩
    · obtain ⟨h1, h2, h3, h4⟩ := hnew e h
      refine ⟨fun a ha => ?_, h3, h4⟩
      rcases h1 a ha with ⟨f, hf, _, hfa⟩ | h
      · exact (hi.size f (.inl ⟨t, hf⟩)).1 a hfa
      · exact (hi.new t a h).1
  -- in-place calls of others are on other origins
  have hother : ∀ u, u ≠ t → ∀ f, (∃ j, (E u)[j]? = some f ∧ Sole E B u j f) → ∀ e, (e ∈ es ∨ ∃ m, e ∈ B' m) → e.org ≠ f.org := by
    rintro u hu f ⟨j, hj, s1, s2, s3⟩ e he
    rcases hsrc e he with (h | ⟨m, h⟩) | h
    · exact s2 t (fun k => hu k.symm) e h
    · exact s3 m e h
    · obtain ⟨_, h2, _⟩ := hnew e h
      rcases h2 with ⟨f', hf', e'⟩ | h2
      · rw [← e']; exact s2 t (fun k => hu k.symm) f' hf'
      · have := (hi.size f (.inl ⟨u, List.mem_of_getElem? hj⟩)).2.1; omega
  refine ⟨fun u => ?_, hheld, hmail, hpost, fun u i e he hti => ?_, fun m e he => hheap ▸ hsent m e he, fun e he => hheap ▸ hsize e he, fun e f he hf hne a hea hfa => ?_, fun u a hN => ?_,
    fun u p rs x hx => ?_, fun u p rs i o k e hx he => ?_, hlog⟩
  · by_cases h : u = t
    · subst h; rw [hEt]; exact hroots
    · rw [hEu u h, hgor u h]; exact hi.roots u
  · rw [hheap]
    by_cases h : u = t
    · subst h; rw [hEt] at he; exact hgood i e he hti
    · rw [hEu u h] at he; rw [hgor u h] at hti; exact hi.good u i e he hti
  · rcases hW e he with h1 | h1 <;> rcases hW f hf with h2 | h2
    · exact hi.disj e f h1 h2 hne a hea hfa
    · exact hdn f e h2 h1 hne a hfa hea
    · exact hdn e f h1 h2 (fun k => hne k.symm) a hea hfa
    · rw [h1] at h2; cases h2; exact hne rfl
  · by_cases h : u = t
    · subst h; exact (hNt a hN).elim
    · rw [hNu u h] at hN
      obtain ⟨n1, n2, n3⟩ := hi.new u a hN
      refine ⟨hheap ▸ n1, fun e he hea => ?_, fun v hv => ?_⟩
      · rcases hW e he with h1 | h1
        · exact n2 e h1 hea
        · rcases (hnew e h1).1 a hea with ⟨f, hf, _, hfa⟩ | h'
          · exact n2 f (.inl ⟨t, hf⟩) hfa
          · exact n3 t (fun k => h k.symm) h'
      · by_cases h' : v = t
        · subst h'; exact hNt a
        · rw [hNu v h']; exact n3 v hv
  · by_cases h : u = t
    · subst h
      rw [hEt, hheap]
      have : setAt N u (fun _ => False) u = fun _ => False := if_pos rfl
      rw [this]; exact htask p rs x hx
    · rw [hgor u h] at hx
      rw [hEu u h, hNu u h, hheap]
      exact hi.task u p rs x hx
  · by_cases h : u = t
    · subst h; rw [hEt] at he; exact hsole p rs i o k e hx he
    · rw [hgor u h] at hx
      rw [hEu u h] at he
      have hS := hi.sole u p rs i o k e hx he
      refine ⟨fun j f hj hf => ?_, fun v hv f hf => ?_, fun m f hf => ?_⟩
      · rw [hEu u h] at hf; exact hS.1 j f hj hf
      · by_cases h' : v = t
        · subst h'; rw [hEt] at hf; exact hother u h e ⟨i, he, hS⟩ f (.inl hf)
        · rw [hEu v h'] at hf; exact hS.2.1 v hv f hf
      · exact hother u h e ⟨i, he, hS⟩ f (.inr ⟨m, hf⟩)

/-! ## Every turn -/

omit [DecidableEq T] [DecidableEq M] in
theorem map_eraseIdx' {X Y : Type} (f : X → Y) (l : List X) (i : Nat) : (l.map f).eraseIdx i = (l.eraseIdx i).map f := by
  induction l generalizing i with
  | nil => rfl
  | cons x l ih =>
    cases i with
    | zero => rfl
    | succ i => simp only [List.map_cons, List.eraseIdx_cons_succ, ih]

section
variable {Rd : K → R → Prog D A}

omit [DecidableEq M] in
theorem setAt_self {X Y : Type} [DecidableEq X] (f : X → Y) (x : X) : setAt f x (f x) = f := by
  funext z
  simp only [setAt]
  by_cases h : z = x
  · rw [if_pos h, h]
  · rw [if_neg h]

omit [DecidableEq M] in
/-- A turn that only changes what `t` is in, with the same trees. -/
theorem RInv.go (hi : RInv Z AR P n w E B N) {t : T} {d : Doing D O R K A M} (hr : d.roots = (w.gor t).roots) (hid : (w.gor t).target = none)
    (htask : ∀ p rs x, d = .busy p rs x → ∃ F ip Q, x.Task I P (E t) F ip Q ∧ Aloft Z AR ip p w.heap F (fun _ => False) Q)
    (hsole : ∀ p rs i o k e, d = .busy p rs (.call (.inp i o) k) → (E t)[i]? = some e → Sole E B t i e) :
    RInv Z AR P (n + 1) (w.go t d) E B (setAt N t fun _ => False) := by
  have hg : (w.go t d).gor t = d := by simp [Relay.go, setAt]
  have := hi.turn (w' := w.go t d) (t := t) (E t) B none rfl (fun u hu => by simp [Relay.go, setAt, hu]) (Nat.le_refl _) hi.log (by rw [hg, hr, hi.roots])
    (fun u => by rw [setAt_self]; exact hi.held u) hi.mail hi.post (fun e he => .inl he) (fun _ h => by cases h) (fun i e he _ => hi.good t i e he (by rw [hid]; simp)) hi.sent
    (fun p rs x hx => htask p rs x (hg.symm.trans hx)) (fun p rs i o k e hx he => by rw [setAt_self]; exact hsole p rs i o k e (hg.symm.trans hx) he)
  rw [setAt_self] at this
  exact this

omit [DecidableEq T] [DecidableEq M] in
theorem RInv.mono (hi : RInv Z AR P n w E B N) : RInv Z AR P (n + 1) w E B N :=
  ⟨hi.roots, hi.held, hi.mail, hi.post, hi.good, hi.sent, fun e he => by obtain ⟨a, b, c⟩ := hi.size e he; exact ⟨a, b, by omega⟩, hi.disj, hi.new, hi.task, hi.sole, hi.log⟩

/-- A tree is taken out of a mailbox. -/
theorem RInv.take (hi : RInv Z AR P n w E B N) {t : T} {rs : List R} {e0 : Errand O K A M} (hd : w.gor t = .idle rs e0) {m : M} {r : R} {l : List R} (hm : w.mail m = r :: l)
    (k : Errand O K A M) : ∃ E' B' N', RInv Z AR P (n + 1) (w.take t rs m r k) E' B' N' := by
  cases hB : B m with
  | nil => have := hi.mail m; rw [hB, hm] at this; cases this
  | cons e l' =>
    have h1 := hi.mail m
    have h2 := hi.post m
    rw [hB] at h1 h2
    rw [hm] at h1
    simp only [List.map_cons, List.cons.injEq] at h1 h2
    obtain ⟨rfl, h1⟩ := h1
    have hrs : rs = (E t).map (·.root) := by rw [← hi.roots t, hd]; rfl
    have hB' : ∀ m' f, f ∈ setAt B m l' m' → f ∈ B m' := fun m' f hf => by
      simp only [setAt] at hf
      by_cases h : m' = m
      · rw [if_pos h] at hf; rw [h, hB]; exact List.mem_cons_of_mem _ hf
      · rw [if_neg h] at hf; exact hf
    have hg : (w.take t rs m e.root k).gor t = .idle (rs ++ [e.root]) k := by simp [Relay.take, Relay.go, setAt]
    refine ⟨_, _, _, hi.turn (w' := w.take t rs m e.root k) (t := t) (E t ++ [e]) (setAt B m l') none rfl (fun u hu => by simp [Relay.take, Relay.go, setAt, hu]) (Nat.le_refl _) hi.log ?_
      (fun u => ?_) (fun m' => ?_) (fun m' => ?_) (fun f hf => ?_) (fun _ h => by cases h) (fun i f hf _ => ?_) (fun m' f hf => hi.sent m' f (hB' m' f hf)) (fun p rs x hx => ?_)
      (fun p rs i o k e hx => ?_)⟩
    · rw [hg]; simp [Doing.roots, hrs]
    · simp only [Relay.take, setAt]
      by_cases h : u = t
      · rw [if_pos h, if_pos h, hi.held t, h2]; simp
      · rw [if_neg h, if_neg h]; exact hi.held u
    · simp only [Relay.take, setAt]
      by_cases h : m' = m
      · rw [if_pos h, if_pos h, hm]; simp [h1]
      · rw [if_neg h, if_neg h]; exact hi.mail m'
    · simp only [Relay.take, setAt]
      by_cases h : m' = m
      · rw [if_pos h, if_pos h, h2]; simp
      · rw [if_neg h, if_neg h]; exact hi.post m'
    · left
      rcases hf with hf | ⟨m', hf⟩
      · rcases List.mem_append.1 hf with hf | hf
        · exact .inl hf
        · rw [List.mem_singleton] at hf
          exact .inr ⟨m, by rw [hB, hf]; exact List.mem_cons_self⟩
      · exact .inr ⟨m', hB' m' f hf⟩
    · rcases List.mem_append.1 (List.mem_of_getElem? hf) with hf | hf
      · obtain ⟨j, hj⟩ := List.getElem?_of_mem hf
        exact hi.good t j f hj (by rw [hd]; simp [Doing.target])
      · rw [List.mem_singleton] at hf
        exact hi.sent m f (by rw [hB, hf]; exact List.mem_cons_self)
    · rw [hg] at hx; cases hx
    · rw [hg] at hx; cases hx

/-- A turn between calls. -/
theorem RInv.act {n0 : Nat} (hI : I.Lawful n0) (hn : n < n0) (hRd : ∀ ρ, One ρ → ∀ k r r', Z.rootR ρ r r' → (Rd k r).Sim ρ (Z.cellR ρ) (AR ρ) (Rd k r'))
    (hR : ∀ k h r l F, l.length ≤ n0 → I.Obj h r l F → wp (fun _ => False) (Rd k r) (fun x h' => h' = h ∧ P k l x) h)
    (hi : RInv Z AR P n w E B N) {t : T} {rs : List R} {e : Errand O K A M} (hd : w.gor t = .idle rs e) (hl : w.Legal I t) :
    ∃ E' B' N', RInv Z AR P (n + 1) (w.act I Rd t rs e) E' B' N' := by
  have hrs : rs = (E t).map (·.root) := by rw [← hi.roots t, hd]; rfl
  have htg : (w.gor t).target = none := by rw [hd]; rfl
  have idle : ∀ k, RInv Z AR P (n + 1) (w.go t (.idle rs k)) E B (setAt N t fun _ => False) := fun k =>
    hi.go (by rw [hd]; rfl) htg (fun _ _ _ h => by cases h) (fun _ _ _ _ _ _ h => by cases h)
  have item : ∀ (i : Nat) r, rs[i]? = some r → ∃ f, (E t)[i]? = some f ∧ f.root = r ∧ Alike Z w.heap f ∧ f.ops.length ≤ n ∧ (w.held t)[i]? = some (f.org, f.ops) := fun i r hr => by
    rw [hrs, List.getElem?_map] at hr
    cases hf : (E t)[i]? with
    | none => rw [hf] at hr; cases hr
    | some f =>
      rw [hf] at hr
      exact ⟨f, rfl, Option.some.inj hr, hi.good t i f hf (by rw [htg]; simp), (hi.size f (.inl ⟨t, List.mem_of_getElem? hf⟩)).2.2, by rw [hi.held, List.getElem?_map, hf]; rfl⟩
  cases e with
  | done => exact ⟨_, _, _, hi.mono⟩
  | call op k =>
    obtain ⟨l1, l2⟩ := hl rs op k hd
    cases op with
    | fresh =>
      refine ⟨_, _, _, hi.go (by rw [hd]; rfl) htg (fun p rs' x hx => ?_) (fun _ _ _ _ _ _ h => by cases h)⟩
      cases hx
      exact ⟨_, _, _, ⟨rfl, rfl, rfl⟩, aloft_fresh hI⟩
    | cow i o =>
      simp only [Relay.act]
      cases hr : rs[i]? with
      | none => exact ⟨_, _, _, idle k⟩
      | some r =>
        obtain ⟨f, f1, rfl, f3, f4, f5⟩ := item i r hr
        refine ⟨_, _, _, hi.go (by rw [hd]; rfl) htg (fun p rs' x hx => ?_) (fun _ _ _ _ _ _ h => by cases h)⟩
        cases hx
        refine ⟨_, _, _, ⟨f, f1, rfl, rfl, rfl⟩, f3.begin (fun r => I.cow o r >>= fun r => pure (.inl r)) false _ (fun σ ho r r' h => sim_inl (Z.cow_r σ ho o r r' h)) fun g r F hO => ?_⟩
        refine ⟨fun a => g.next ≤ a, ?_, fun _ b k => k⟩
        simp only [wp_bind, wp_pure]
        refine wp_conseq (hI.cow_ok f.ops o r g F (by omega) (l1 _ f5) hO) ?_
        rintro r' g' ⟨F', h1, _⟩
        exact ⟨r', F', rfl, h1⟩
    | inp i o =>
      simp only [Relay.act]
      cases hr : rs[i]? with
      | none => exact ⟨_, _, _, idle k⟩
      | some r =>
        obtain ⟨f, f1, rfl, f3, f4, f5⟩ := item i r hr
        obtain ⟨l3, l4⟩ := l1 _ f5
        obtain ⟨l5, l6⟩ := l2 i o rfl _ f5
        refine ⟨_, _, _, hi.go (by rw [hd]; rfl) htg (fun p rs' x hx => ?_) (fun p rs' i' o' k' e hx he => ?_)⟩
        · cases hx
          refine ⟨_, _, _, ⟨f, f1, rfl, rfl, rfl⟩, f3.begin (fun r => I.inp o r >>= fun r => pure (.inl r)) true _ (fun σ ho r r' h => sim_inl (Z.inp_r σ ho o r r' h)) fun g r F hO => ?_⟩
          refine ⟨fun a => F a ∨ g.next ≤ a, ?_, fun h => by cases h⟩
          simp only [wp_bind, wp_pure]
          refine wp_conseq (hI.inp_ok f.ops o r g F (by omega) l3 hO) ?_
          rintro r' g' ⟨F', h1, _⟩
          exact ⟨r', F', rfl, h1⟩
        · cases hx
          rw [f1] at he
          cases he
          refine ⟨fun j f' hj hf' => ?_, fun u hu f' hf' => ?_, fun m f' hf' => ?_⟩
          · exact l4 j (f'.org, f'.ops) hj (by simp only [hi.held, List.getElem?_map, hf', Option.map_some])
          · exact l5 u hu (f'.org, f'.ops) (by rw [hi.held]; exact List.mem_map.2 ⟨f', hf', rfl⟩)
          · exact l6 m (f'.org, f'.ops) (by rw [hi.post]; exact List.mem_map.2 ⟨f', hf', rfl⟩)
    | drop i =>
      have hg : (w.act I Rd t rs (.call (.drop i) k)).gor t = .idle (rs.eraseIdx i) k := by simp [Relay.act, Relay.go, setAt]
      refine ⟨_, _, _, hi.turn (w' := w.act I Rd t rs (.call (.drop i) k)) (t := t) ((E t).eraseIdx i) B none rfl (fun u hu => by simp [Relay.act, Relay.go, setAt, hu]) (Nat.le_refl _) hi.log ?_
        (fun u => ?_) hi.mail hi.post (fun f hf => .inl ?_) (fun _ h => by cases h) (fun j f hf _ => ?_) hi.sent (fun p rs x hx => ?_) (fun p rs i o k e hx => ?_)⟩
      · rw [hg]; simp [Doing.roots, hrs, map_eraseIdx']
      · simp only [Relay.act, setAt]
        by_cases h : u = t
        · rw [if_pos h, if_pos h, hi.held t, map_eraseIdx']
        · rw [if_neg h, if_neg h]; exact hi.held u
      · exact hf.imp (fun h => List.mem_of_mem_eraseIdx h) id
      · obtain ⟨j', hj'⟩ := List.getElem?_of_mem (List.mem_of_mem_eraseIdx (List.mem_of_getElem? hf))
        exact hi.good t j' f hj' (by rw [htg]; simp)
      · rw [hg] at hx; cases hx
      · rw [hg] at hx; cases hx
  | ask i q k =>
    simp only [Relay.act]
    cases hr : rs[i]? with
    | none => exact ⟨_, _, _, idle (k none)⟩
    | some r =>
      obtain ⟨f, f1, rfl, f3, f4, f5⟩ := item i r hr
      refine ⟨_, _, _, hi.go (by rw [hd]; rfl) htg (fun p rs' x hx => ?_) (fun _ _ _ _ _ _ h => by cases h)⟩
      cases hx
      refine ⟨_, _, _, ⟨f, f1, rfl, rfl, rfl⟩, f3.begin (fun r => Rd q r >>= fun a => pure (.inr a)) false _ (fun σ ho r r' h => sim_bind (hRd σ ho q r r' h) fun x y hxy => sim_pure hxy) fun g r F hO => ?_⟩
      refine ⟨fun _ => False, ?_, fun _ b k => k.elim⟩
      simp only [wp_bind, wp_pure]
      refine wp_conseq (hR q g r f.ops F (by omega) hO) ?_
      rintro x g' ⟨_, h1⟩
      exact ⟨x, rfl, h1⟩
  | send i m k =>
    simp only [Relay.act]
    cases hr : rs[i]? with
    | none => exact ⟨_, _, _, idle k⟩
    | some r =>
      obtain ⟨f, f1, rfl, f3, f4, f5⟩ := item i r hr
      have hB' : ∀ m' e, e ∈ setAt B m (B m ++ [f]) m' → e ∈ B m' ∨ e = f := fun m' e he => by
        simp only [setAt] at he
        by_cases h : m' = m
        · rw [if_pos h] at he; rw [h]; exact (List.mem_append.1 he).imp id List.mem_singleton.1
        · rw [if_neg h] at he; exact .inl he
      refine ⟨_, _, _, hi.turn (t := t) (E t) (setAt B m (B m ++ [f])) none rfl (fun u hu => by simp [Relay.go, setAt, hu]) (Nat.le_refl _) hi.log ?_
        (fun u => ?_) (fun m' => ?_) (fun m' => ?_) (fun e he => .inl ?_) (fun _ h => by cases h) (fun j e he _ => hi.good t j e he (by rw [htg]; simp)) (fun m' e he => ?_) (fun p rs x hx => ?_)
        (fun p rs i o k e hx => ?_)⟩
      · simp [Relay.go, setAt, Doing.roots, hrs]
      · rw [setAt_self]; exact hi.held u
      · simp only [setAt]
        by_cases h : m' = m
        · rw [if_pos h, if_pos h, hi.mail m]; simp
        · rw [if_neg h, if_neg h]; exact hi.mail m'
      · simp only [setAt]
        by_cases h : m' = m
        · rw [if_pos h, if_pos h, hi.post m, f5]; simp
        · rw [if_neg h, if_neg h]; exact hi.post m'
      · rcases he with he | ⟨m', he⟩
        · exact .inl he
        · rcases hB' m' e he with h | rfl
          · exact .inr ⟨m', h⟩
          · exact .inl (List.mem_of_getElem? f1)
      · rcases hB' m' e he with h | rfl
        · exact hi.sent m' e h
        · exact f3
      · simp [Relay.go, setAt] at hx
      · simp [Relay.go, setAt] at hx
  | give i m k =>
    simp only [Relay.act]
    cases hr : rs[i]? with
    | none => exact ⟨_, _, _, idle k⟩
    | some r =>
      obtain ⟨f, f1, rfl, f3, f4, f5⟩ := item i r hr
      have hB' : ∀ m' e, e ∈ setAt B m (B m ++ [f]) m' → e ∈ B m' ∨ e = f := fun m' e he => by
        simp only [setAt] at he
        by_cases h : m' = m
        · rw [if_pos h] at he; rw [h]; exact (List.mem_append.1 he).imp id List.mem_singleton.1
        · rw [if_neg h] at he; exact .inl he
      refine ⟨_, _, _, hi.turn (t := t) ((E t).eraseIdx i) (setAt B m (B m ++ [f])) none rfl (fun u hu => by simp [Relay.go, setAt, hu]) (Nat.le_refl _) hi.log ?_
        (fun u => ?_) (fun m' => ?_) (fun m' => ?_) (fun e he => .inl ?_) (fun _ h => by cases h) (fun j e he _ => ?_) (fun m' e he => ?_) (fun p rs x hx => ?_)
        (fun p rs i o k e hx => ?_)⟩
      · simp [Relay.go, setAt, Doing.roots, hrs, map_eraseIdx']
      · simp only [setAt]
        by_cases h : u = t
        · rw [if_pos h, if_pos h, hi.held t, map_eraseIdx']
        · rw [if_neg h, if_neg h]; exact hi.held u
      · simp only [setAt]
        by_cases h : m' = m
        · rw [if_pos h, if_pos h, hi.mail m]; simp
        · rw [if_neg h, if_neg h]; exact hi.mail m'
      · simp only [setAt]
        by_cases h : m' = m
        · rw [if_pos h, if_pos h, hi.post m, f5]; simp
        · rw [if_neg h, if_neg h]; exact hi.post m'
      · rcases he with he | ⟨m', he⟩
        · exact .inl (List.mem_of_mem_eraseIdx he)
        · rcases hB' m' e he with h | rfl
          · exact .inr ⟨m', h⟩
          · exact .inl (List.mem_of_getElem? f1)
      · obtain ⟨j', hj'⟩ := List.getElem?_of_mem (List.mem_of_mem_eraseIdx (List.mem_of_getElem? he))
        exact hi.good t j' e hj' (by rw [htg]; simp)
      · rcases hB' m' e he with h | rfl
        · exact hi.sent m' e h
        · exact f3
      · simp [Relay.go, setAt] at hx
      · simp [Relay.go, setAt] at hx
  | recv m k =>
    simp only [Relay.act]
    cases hm : w.mail m with
    | nil => exact ⟨_, _, _, hi.mono⟩
    | cons r l => exact hi.take hd hm k
  | poll m k =>
    simp only [Relay.act]
    cases hm : w.mail m with
    | nil => exact ⟨_, _, _, idle _⟩
    | cons r l => exact hi.take hd hm _

omit [DecidableEq M] in
/-- The end of a call. -/
theorem RInv.finish (hP : ∀ ρ k l x y, AR ρ x y → P k l y → P k l x) (hi : RInv Z AR P n w E B N) {t : T} {y : R ⊕ A} {rs : List R} {x : What O K A M} (hb : w.gor t = .busy (.ret y) rs x) :
    ∃ E' B' N', RInv Z AR P (n + 1) (w.finish t rs y x) E' B' N' := by
  have hrs : rs = (E t).map (·.root) := by rw [← hi.roots t, hb]; rfl
  obtain ⟨F, ip, Q, hT, hA⟩ := hi.task t _ rs x hb
  obtain ⟨ρ, z, g, h1, h2, h3, h4, h5, h6⟩ := hA.ret
  have result : ∀ o l, (∃ r F', z = .inl r ∧ I.Obj g r l F') → ∃ r, y = .inl r ∧ Alike Z w.heap ⟨r, fun a => F a ∨ N t a, o, l⟩ := by
    rintro o l ⟨r, F', rfl, hO⟩
    cases y with
    | inr a => exact h4.elim
    | inl s => exact ⟨s, rfl, ρ, g, r, F', h1, h2, h3, h4, hO, h6⟩
  cases x with
  | call op k =>
    cases op with
    | fresh =>
      obtain ⟨rfl, rfl, rfl⟩ := hT
      obtain ⟨r, rfl, hr⟩ := result w.next [] h5
      have hg : (w.finish t rs (.inl r) (.call .fresh k)).gor t = .idle (rs ++ [r]) k := by simp [Relay.finish, Relay.go, setAt, SOp.put]
      refine ⟨_, _, _, hi.turn (w' := w.finish t rs (.inl r) (.call .fresh k)) (t := t) (E t ++ [⟨r, fun a => False ∨ N t a, w.next, []⟩]) B (some ⟨r, fun a => False ∨ N t a, w.next, []⟩) rfl
        (fun u hu => by simp [Relay.finish, Relay.go, setAt, hu]) (Nat.le_succ _) hi.log ?_ (fun u => ?_) hi.mail hi.post (fun f hf => ?_) (fun e he => ?_) (fun j f hf _ => ?_) hi.sent (fun p rs x hx => ?_)
        (fun p rs i o k e hx => ?_)⟩
      · rw [hg]; simp [Doing.roots, hrs]
      · simp only [Relay.finish, setAt, Book.step]
        by_cases h : u = t
        · rw [if_pos h, if_pos h, hi.held t]; simp
        · rw [if_neg h, if_neg h]; exact hi.held u
      · rcases hf with hf | hf
        · rcases List.mem_append.1 hf with hf | hf
          · exact .inl (.inl hf)
          · rw [List.mem_singleton] at hf; exact .inr (congrArg some hf.symm)
        · exact .inl (.inr hf)
      · cases he
        exact ⟨fun a h => .inr (h.resolve_left id), .inr (Nat.le_refl _), Nat.lt_succ_self _, Nat.zero_le _⟩
      · rcases List.mem_append.1 (List.mem_of_getElem? hf) with hf | hf
        · obtain ⟨j', hj'⟩ := List.getElem?_of_mem hf
          exact hi.good t j' f hj' (by rw [hb]; simp [Doing.target, What.target])
        · rw [List.mem_singleton] at hf; rw [hf]; exact hr
      · rw [hg] at hx; cases hx
      · rw [hg] at hx; cases hx
    | cow i o =>
      obtain ⟨e, he, rfl, rfl, rfl⟩ := hT
      obtain ⟨r, rfl, hr⟩ := result e.org (o :: e.ops) h5
      have heW := hi.size e (.inl ⟨t, List.mem_of_getElem? he⟩)
      have hgt : (w.held t)[i]? = some (e.org, e.ops) := by rw [hi.held, List.getElem?_map, he]; rfl
      have hg : (w.finish t rs (.inl r) (.call (.cow i o) k)).gor t = .idle (rs ++ [r]) k := by simp [Relay.finish, Relay.go, setAt, SOp.put]
      refine ⟨_, _, _, hi.turn (w' := w.finish t rs (.inl r) (.call (.cow i o) k)) (t := t) (E t ++ [⟨r, fun a => e.foot a ∨ N t a, e.org, o :: e.ops⟩]) B
        (some ⟨r, fun a => e.foot a ∨ N t a, e.org, o :: e.ops⟩) rfl
        (fun u hu => by simp [Relay.finish, Relay.go, setAt, hu]) ?_ hi.log ?_ (fun u => ?_) hi.mail hi.post (fun f hf => ?_) (fun f hf => ?_) (fun j f hf _ => ?_) hi.sent (fun p rs x hx => ?_)
        (fun p rs i o k e hx => ?_)⟩
      · simp [Relay.finish, Book.step, hgt]
      · rw [hg]; simp [Doing.roots, hrs]
      · simp only [Relay.finish, setAt, Book.step, hgt]
        by_cases h : u = t
        · rw [if_pos h, if_pos h, hi.held t]; simp
        · rw [if_neg h, if_neg h]; exact hi.held u
      · rcases hf with hf | hf
        · rcases List.mem_append.1 hf with hf | hf
          · exact .inl (.inl hf)
          · rw [List.mem_singleton] at hf; exact .inr (congrArg some hf.symm)
        · exact .inl (.inr hf)
      · cases hf
        refine ⟨fun a h => h.imp (fun h => ⟨e, List.mem_of_getElem? he, rfl, h⟩) id, .inl ⟨e, List.mem_of_getElem? he, rfl⟩, ?_, ?_⟩
        · simp only [Relay.finish, Book.step, hgt]; exact heW.2.1
        · simp only [List.length_cons]; omega
      · rcases List.mem_append.1 (List.mem_of_getElem? hf) with hf | hf
        · obtain ⟨j', hj'⟩ := List.getElem?_of_mem hf
          exact hi.good t j' f hj' (by rw [hb]; simp [Doing.target, What.target])
        · rw [List.mem_singleton] at hf; rw [hf]; exact hr
      · rw [hg] at hx; cases hx
      · rw [hg] at hx; cases hx
    | inp i o =>
      obtain ⟨e, he, rfl, rfl, rfl⟩ := hT
      obtain ⟨r, rfl, hr⟩ := result e.org (o :: e.ops) h5
      have heW := hi.size e (.inl ⟨t, List.mem_of_getElem? he⟩)
      have hgt : (w.held t)[i]? = some (e.org, e.ops) := by rw [hi.held, List.getElem?_map, he]; rfl
      have hg : (w.finish t rs (.inl r) (.call (.inp i o) k)).gor t = .idle (rs.set i r) k := by simp [Relay.finish, Relay.go, setAt, SOp.put]
      refine ⟨_, _, _, hi.turn (w' := w.finish t rs (.inl r) (.call (.inp i o) k)) (t := t) ((E t).set i ⟨r, fun a => e.foot a ∨ N t a, e.org, o :: e.ops⟩) B
        (some ⟨r, fun a => e.foot a ∨ N t a, e.org, o :: e.ops⟩) rfl
        (fun u hu => by simp [Relay.finish, Relay.go, setAt, hu]) ?_ hi.log ?_ (fun u => ?_) hi.mail hi.post (fun f hf => ?_) (fun f hf => ?_) (fun j f hf _ => ?_) hi.sent (fun p rs x hx => ?_)
        (fun p rs i o k e hx => ?_)⟩
      · simp [Relay.finish, Book.step, hgt]
      · rw [hg]; simp [Doing.roots, hrs, List.map_set]
      · simp only [Relay.finish, setAt, Book.step, hgt]
        by_cases h : u = t
        · rw [if_pos h, if_pos h, hi.held t]; simp [List.map_set]
        · rw [if_neg h, if_neg h]; exact hi.held u
      · rcases hf with hf | hf
        · rcases List.mem_or_eq_of_mem_set hf with hf | hf
          · exact .inl (.inl hf)
          · exact .inr (congrArg some hf.symm)
        · exact .inl (.inr hf)
      · cases hf
        refine ⟨fun a h => h.imp (fun h => ⟨e, List.mem_of_getElem? he, rfl, h⟩) id, .inl ⟨e, List.mem_of_getElem? he, rfl⟩, ?_, ?_⟩
        · simp only [Relay.finish, Book.step, hgt]; exact heW.2.1
        · simp only [List.length_cons]; omega
      · rw [List.getElem?_set] at hf
        by_cases h : i = j
        · rw [if_pos h] at hf
          split at hf
          · cases hf; exact hr
          · cases hf
        · rw [if_neg h] at hf
          exact hi.good t j f hf (by rw [hb]; simp [Doing.target, What.target, h])
      · rw [hg] at hx; cases hx
      · rw [hg] at hx; cases hx
    | drop i => exact hT.elim
  | ask i q k =>
    obtain ⟨e, he, rfl, rfl, rfl⟩ := hT
    obtain ⟨a, rfl, hPa⟩ := h5
    cases y with
    | inl r => exact h4.elim
    | inr a' =>
      have hgt : (w.held t)[i]? = some (e.org, e.ops) := by rw [hi.held, List.getElem?_map, he]; rfl
      have hg : (w.finish t rs (.inr a') (.ask i q k)).gor t = .idle rs (k a') := by simp [Relay.finish, Relay.go, setAt]
      refine ⟨_, _, _, hi.turn (w' := w.finish t rs (.inr a') (.ask i q k)) (t := t) (E t) B none rfl (fun u hu => by simp [Relay.finish, Relay.go, setAt, hu]) (Nat.le_refl _)
        (fun u q' l b hl => ?_) ?_ (fun u => ?_) hi.mail hi.post (fun f hf => .inl hf) (fun _ h => by cases h) (fun j f hf _ => ?_) hi.sent (fun p rs x hx => ?_)
        (fun p rs i o k e hx => ?_)⟩
      · simp only [Relay.finish, setAt, hgt] at hl
        by_cases h : u = t
        · rw [if_pos h] at hl
          rcases List.mem_append.1 hl with hl | hl
          · exact hi.log t q' l b hl
          · simp only [Option.map_some, Option.toList_some, List.mem_singleton, Prod.mk.injEq] at hl
            obtain ⟨rfl, rfl, rfl⟩ := hl
            exact hP ρ _ _ _ _ h4 hPa
        · rw [if_neg h] at hl; exact hi.log u q' l b hl
      · rw [hg]; simp [Doing.roots, hrs]
      · rw [setAt_self]; exact hi.held u
      · exact hi.good t j f hf (by rw [hb]; simp [Doing.target, What.target])
      · rw [hg] at hx; cases hx
      · rw [hg] at hx; cases hx

theorem Relay.step_access {t : T} {p p' : Prog D (R ⊕ A)} {rs : List R} {x : What O K A M} {h' : Heap D} (hb : w.gor t = .busy p rs x) (hs : p.step w.heap = some (p', h')) :
    w.step I Rd t = { w.go t (.busy p' rs x) with heap := h' } := by
  simp only [Relay.step, hb]
  cases p with
  | ret y => cases hs
  | _ => simp only [hs]

theorem step_done {β : Type} {p : Prog D β} {h : Heap D} (hs : p.step h = none) : (∃ x, p = .ret x) ∨ ∃ e, p = .stop e := by
  cases p with
  | ret x => exact .inl ⟨x, rfl⟩
  | stop e => exact .inr ⟨e, rfl⟩
  | read a k =>
    simp only [Prog.step] at hs
    split at hs <;> cases hs
  | write a c k => cases hs
  | alloc c k => cases hs

/-- Every turn keeps the invariant. -/
theorem RInv.step {n0 : Nat} (hI : I.Lawful n0) (hn : n < n0) (hRd : ∀ ρ, One ρ → ∀ k r r', Z.rootR ρ r r' → (Rd k r).Sim ρ (Z.cellR ρ) (AR ρ) (Rd k r'))
    (hP : ∀ ρ k l x y, AR ρ x y → P k l y → P k l x) (hR : ∀ k h r l F, l.length ≤ n0 → I.Obj h r l F → wp (fun _ => False) (Rd k r) (fun x h' => h' = h ∧ P k l x) h)
    (hi : RInv Z AR P n w E B N) (t : T) (hl : w.Legal I t) : ∃ E' B' N', RInv Z AR P (n + 1) (w.step I Rd t) E' B' N' := by
  cases hg : w.gor t with
  | idle rs e =>
    have : w.step I Rd t = w.act I Rd t rs e := by simp only [Relay.step, hg]
    rw [this]
    exact hi.act hI hn hRd hR hg hl
  | busy p rs x =>
    cases hs : p.step w.heap with
    | some ph =>
      obtain ⟨p', h'⟩ := ph
      rw [Relay.step_access hg hs]
      exact ⟨_, _, _, (hi.access hg hs).1.mono⟩
    | none =>
      obtain ⟨F, ip, Q, _, hA⟩ := hi.task t p rs x hg
      rcases step_done hs with ⟨y, rfl⟩ | ⟨e, rfl⟩
      · have : w.step I Rd t = w.finish t rs y x := by simp only [Relay.step, hg]
        rw [this]
        exact hi.finish hP hg
      · exact (hA.fine e rfl).elim

omit [DecidableEq T] [DecidableEq M] in
theorem rinv_start (Z : I.Blind) (AR : (Addr → Addr → Prop) → A → A → Prop) (P : K → List O → A → Prop) (job : T → Errand O K A M) :
    RInv Z AR P 0 (Relay.start job : Relay D O R K A M T) (fun _ => []) (fun _ => []) (fun _ _ => False) := by
  have none : ∀ e : Item R O, ¬ Within (fun _ : T => []) (fun _ : M => []) e := by
    rintro e (⟨_, h⟩ | ⟨_, h⟩) <;> cases h
  refine ⟨fun _ => rfl, fun _ => rfl, fun _ => rfl, fun _ => rfl, fun _ _ _ h => ?_, fun _ _ h => ?_, fun e h => (none e h).elim, fun e _ h => (none e h).elim, fun _ _ h => h.elim,
    fun _ _ _ _ h => ?_, fun _ _ _ _ _ _ _ h => ?_, fun _ _ _ _ h => ?_⟩
  · simp at h
  · cases h
  · cases h
  · cases h
  · cases h

theorem RInv.exec {n0 : Nat} (hI : I.Lawful n0) (hRd : ∀ ρ, One ρ → ∀ k r r', Z.rootR ρ r r' → (Rd k r).Sim ρ (Z.cellR ρ) (AR ρ) (Rd k r'))
    (hP : ∀ ρ k l x y, AR ρ x y → P k l y → P k l x) (hR : ∀ k h r l F, l.length ≤ n0 → I.Obj h r l F → wp (fun _ => False) (Rd k r) (fun x h' => h' = h ∧ P k l x) h)
    (hi : RInv Z AR P n w E B N) (sched : List T) (hn : n + sched.length ≤ n0) (hl : w.LegalAll I Rd sched) :
    ∃ E' B' N', RInv Z AR P (n + sched.length) (w.exec I Rd sched) E' B' N' := by
  induction sched generalizing w n E B N with
  | nil => exact ⟨_, _, _, hi⟩
  | cons t ts ih =>
    simp only [List.length_cons] at hn
    obtain ⟨E', B', N', h⟩ := hi.step hI (by omega) hRd hP hR t hl.1
    have := ih h (by omega) hl.2
    rw [List.length_cons, Nat.add_comm ts.length 1, ← Nat.add_assoc]
    exact this

/-- What the invariant says. -/
theorem RInv.fine {n0 : Nat} (hRd : ∀ ρ, One ρ → ∀ k r r', Z.rootR ρ r r' → (Rd k r).Sim ρ (Z.cellR ρ) (AR ρ) (Rd k r'))
    (hP : ∀ ρ k l x y, AR ρ x y → P k l y → P k l x) (hR : ∀ k h r l F, l.length ≤ n0 → I.Obj h r l F → wp (fun _ => False) (Rd k r) (fun x h' => h' = h ∧ P k l x) h)
    (hn : n ≤ n0) (hi : RInv Z AR P n w E B N) : w.Fine I Rd P := by
  refine ⟨fun t e rs x hb => ?_, hi.log, fun t rs e hd => ?_, fun m => ⟨by rw [hi.mail, hi.post]; simp, fun i r v q hr hv => ?_⟩, fun t u hu p rs x p' rs' x' a hb hb' hw hr => ?_,
    fun t p rs x hb => ?_, fun t u hu p rs x hb => ?_⟩
  · obtain ⟨F, ip, Q, _, hA⟩ := hi.task t _ rs x hb
    exact hA.fine e rfl
  · have hrs : rs = (E t).map (·.root) := by rw [← hi.roots t, hd]; rfl
    refine ⟨by rw [hrs, hi.held]; simp, fun i r v q hr hv => ?_⟩
    rw [hrs, List.getElem?_map] at hr
    rw [hi.held, List.getElem?_map] at hv
    cases hf : (E t)[i]? with
    | none => rw [hf] at hr; cases hr
    | some f =>
      rw [hf] at hr hv
      cases hr; cases hv
      exact (hi.good t i f hf (by rw [hd]; simp [Doing.target])).reads hRd hP hR (Nat.le_trans (hi.size f (.inl ⟨t, List.mem_of_getElem? hf⟩)).2.2 hn) q
  · rw [hi.mail, List.getElem?_map] at hr
    rw [hi.post, List.getElem?_map] at hv
    cases hf : (B m)[i]? with
    | none => rw [hf] at hr; cases hr
    | some f =>
      rw [hf] at hr hv
      cases hr; cases hv
      exact (hi.sent m f (List.mem_of_getElem? hf)).reads hRd hP hR (Nat.le_trans (hi.size f (.inr ⟨m, List.mem_of_getElem? hf⟩)).2.2 hn) q
  · obtain ⟨F, ip, Q, hT, hA⟩ := hi.task t _ rs x hb
    obtain ⟨F', ip', Q', hT', hA'⟩ := hi.task u _ rs' x' hb'
    obtain ⟨k1, k2, k3⟩ := hi.apart hb hT (hA.writes hw)
    rcases hA'.reaches hr with h | h
    · obtain ⟨f, hf, hfa⟩ := hT'.foot h
      obtain ⟨j, hj⟩ := List.getElem?_of_mem hf
      exact k1 u j f hj (fun e => (hu e).elim) hfa
    · exact k3 u hu h
  · obtain ⟨F, ip, Q, _, hA⟩ := hi.task t p rs x hb
    cases hs : p.step w.heap with
    | some ph =>
      obtain ⟨p', h'⟩ := ph
      right
      rw [Relay.step_access hb hs]
      exact ⟨p', by simp [Relay.go, setAt], (step_out hs).2⟩
    | none =>
      rcases step_done hs with h | ⟨e, rfl⟩
      · exact .inl h
      · exact (hA.fine e rfl).elim
  · have same : ∀ w' : Relay D O R K A M T, w'.heap = w.heap → w'.gor t = w.gor t → w'.gor t = .busy p rs x ∧ p.left w'.heap = p.left w.heap := fun w' h1 h2 => by rw [h1, h2]; exact ⟨hb, rfl⟩
    have ht : t ≠ u := fun e => hu e.symm
    cases hg : w.gor u with
    | idle rs' e =>
      have : w.step I Rd u = w.act I Rd u rs' e := by simp only [Relay.step, hg]
      rw [this]
      cases e with
      | done => exact same _ rfl rfl
      | call op k =>
        cases op with
        | fresh => exact same _ rfl (by simp [Relay.act, Relay.go, setAt, ht])
        | drop i => exact same _ rfl (by simp [Relay.act, Relay.go, setAt, ht])
        | cow i o => simp only [Relay.act]; split <;> exact same _ rfl (by simp [Relay.go, setAt, ht])
        | inp i o => simp only [Relay.act]; split <;> exact same _ rfl (by simp [Relay.go, setAt, ht])
      | ask i q k => simp only [Relay.act]; split <;> exact same _ rfl (by simp [Relay.go, setAt, ht])
      | send i m k => simp only [Relay.act]; split <;> exact same _ rfl (by simp [Relay.go, setAt, ht])
      | give i m k => simp only [Relay.act]; split <;> exact same _ rfl (by simp [Relay.go, setAt, ht])
      | recv m k => simp only [Relay.act]; split <;> exact same _ rfl (by simp [Relay.take, Relay.go, setAt, ht])
      | poll m k => simp only [Relay.act]; split <;> exact same _ rfl (by simp [Relay.take, Relay.go, setAt, ht])
    | busy q rs' y =>
      cases hs : q.step w.heap with
      | some ph =>
        obtain ⟨p', h'⟩ := ph
        rw [Relay.step_access hg hs]
        exact ⟨by simp only [Relay.go, setAt, if_neg ht]; exact hb, (hi.access hg hs).2 t ht p rs x hb⟩
      | none =>
        rcases step_done hs with ⟨z, rfl⟩ | ⟨e, rfl⟩
        · have : w.step I Rd u = w.finish u rs' z y := by simp only [Relay.step, hg]
          rw [this]
          cases z <;> cases y <;> exact same _ rfl (by simp [Relay.finish, Relay.go, setAt, ht])
        · obtain ⟨F, ip, Q, _, hA⟩ := hi.task u _ rs' y hg
          exact (hA.fine e rfl).elim

/-- In every legal schedule all is fine at every time. -/
theorem relay_fine {n0 : Nat} (hI : I.Lawful n0) (Z : I.Blind) (Rd : K → R → Prog D A) (P : K → List O → A → Prop) (AR : (Addr → Addr → Prop) → A → A → Prop)
    (hRd : ∀ ρ, One ρ → ∀ k r r', Z.rootR ρ r r' → (Rd k r).Sim ρ (Z.cellR ρ) (AR ρ) (Rd k r')) (hP : ∀ ρ k l x y, AR ρ x y → P k l y → P k l x)
    (hR : ∀ k h r l F, l.length ≤ n0 → I.Obj h r l F → wp (fun _ => False) (Rd k r) (fun x h' => h' = h ∧ P k l x) h) (job : T → Errand O K A M) (sched : List T) (hn : sched.length ≤ n0)
    (hl : (Relay.start job : Relay D O R K A M T).LegalAll I Rd sched) : ((Relay.start job : Relay D O R K A M T).exec I Rd sched).Fine I Rd P := by
  obtain ⟨E, B, N, h⟩ := (rinv_start Z AR P job).exec hI hRd hP hR sched (by omega) hl
  exact h.fine hRd hP hR (by omega)

end

end

end Verif.Heap
