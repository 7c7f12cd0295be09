import Verif.Heap.OneSupply

/-!
# Goroutines that hand trees to each other

Any number of goroutines with one memory and one supply of addresses.  Each makes trees, derives trees, inserts in place, asks, and sends trees to mailboxes and takes trees from them; what it
does next may depend on the answers and on whether a mailbox was empty.  A mailbox is a queue without bound: a Go channel of any capacity only makes a sender wait, which takes schedules away.
A turn of a goroutine is one memory access, the start or the end of a call, or one use of a mailbox.
-/

namespace Verif.Heap
open Prog
variable {D O R K A M T : Type}

/-- A function changed at one place. -/
def setAt {X Y : Type} [DecidableEq X] (f : X → Y) (x : X) (y : Y) : X → Y := fun z => if z = x then y else f z

/-- What a goroutine does: calls as in histories, questions, sending the `i`-th tree it holds and keeping it (`send`) or not using it any more (`give`), taking a tree (waiting for one; or looking whether there
is one). -/
inductive Errand (O K A M : Type) where
  | done
  | call (op : SOp O) (k : Errand O K A M)
  | ask (i : Nat) (q : K) (k : Option A → Errand O K A M)
  | send (i : Nat) (m : M) (k : Errand O K A M)
  | give (i : Nat) (m : M) (k : Errand O K A M)
  | recv (m : M) (k : Errand O K A M)
  | poll (m : M) (k : Bool → Errand O K A M)

/-- A call a goroutine is in, and how it goes on. -/
inductive What (O K A M : Type) where
  | call (op : SOp O) (k : Errand O K A M)
  | ask (i : Nat) (q : K) (k : A → Errand O K A M)

/-- Between calls, or in a call of which `p` is left to do; `rs` are the trees held. -/
inductive Doing (D O R K A M : Type) where
  | idle (rs : List R) (e : Errand O K A M)
  | busy (p : Prog D (R ⊕ A)) (rs : List R) (x : What O K A M)

def Doing.roots : Doing D O R K A M → List R
  | .idle rs _ => rs
  | .busy _ rs _ => rs

/-- The memory, the goroutines, the mailboxes; and, only for the record: origin and calls of every tree held (`held`) and on its way (`post`), how many trees were started (`next`), and the
questions asked, with the calls that made the tree and the answer (`log`). -/
structure Relay (D O R K A M T : Type) where
  heap : Heap D
  gor : T → Doing D O R K A M
  mail : M → List R
  held : T → List (Nat × List O)
  post : M → List (Nat × List O)
  next : Nat
  log : T → List (K × List O × A)

/-- The trees held after a call. -/
def SOp.put (rs : List R) (r : R) : SOp O → List R
  | .fresh => rs ++ [r]
  | .cow _ _ => rs ++ [r]
  | .inp i _ => rs.set i r
  | .drop _ => rs

section
variable [DecidableEq T] [DecidableEq M]

def Relay.go (w : Relay D O R K A M T) (t : T) (d : Doing D O R K A M) : Relay D O R K A M T := { w with gor := setAt w.gor t d }

/-- The first tree of a mailbox goes to goroutine `t`. -/
def Relay.take (w : Relay D O R K A M T) (t : T) (rs : List R) (m : M) (r : R) (k : Errand O K A M) : Relay D O R K A M T :=
  { w.go t (.idle (rs ++ [r]) k) with mail := setAt w.mail m (w.mail m).tail, held := setAt w.held t (w.held t ++ (w.post m).take 1), post := setAt w.post m (w.post m).tail }

/-- A turn of a goroutine between calls. -/
def Relay.act (I : OImpl D O R) (Rd : K → R → Prog D A) (w : Relay D O R K A M T) (t : T) (rs : List R) : Errand O K A M → Relay D O R K A M T
  | .done => w
  | .call .fresh k => w.go t (.busy (I.fresh >>= fun r => pure (.inl r)) rs (.call .fresh k))
  | .call (.cow i o) k => match rs[i]? with
    | none => w.go t (.idle rs k)
    | some r => w.go t (.busy (I.cow o r >>= fun r => pure (.inl r)) rs (.call (.cow i o) k))
  | .call (.inp i o) k => match rs[i]? with
    | none => w.go t (.idle rs k)
    | some r => w.go t (.busy (I.inp o r >>= fun r => pure (.inl r)) rs (.call (.inp i o) k))
  | .call (.drop i) k => { w.go t (.idle (rs.eraseIdx i) k) with held := setAt w.held t ((w.held t).eraseIdx i) }
  | .ask i q k => match rs[i]? with
    | none => w.go t (.idle rs (k none))
    | some r => w.go t (.busy (Rd q r >>= fun a => pure (.inr a)) rs (.ask i q fun a => k (some a)))
  | .send i m k => match rs[i]? with
    | none => w.go t (.idle rs k)
    | some r => { w.go t (.idle rs k) with mail := setAt w.mail m (w.mail m ++ [r]), post := setAt w.post m (w.post m ++ ((w.held t)[i]?).toList) }
  | .give i m k => match rs[i]? with
    | none => w.go t (.idle rs k)
    | some r => { w.go t (.idle (rs.eraseIdx i) k) with
        mail := setAt w.mail m (w.mail m ++ [r]), held := setAt w.held t ((w.held t).eraseIdx i), post := setAt w.post m (w.post m ++ ((w.held t)[i]?).toList) }
  | .recv m k => match w.mail m with
    | [] => w
    | r :: _ => w.take t rs m r k
  | .poll m k => match w.mail m with
    | [] => w.go t (.idle rs (k false))
    | r :: _ => w.take t rs m r (k true)

/-- The end of a call. -/
def Relay.finish (w : Relay D O R K A M T) (t : T) (rs : List R) : R ⊕ A → What O K A M → Relay D O R K A M T
  | .inl r, .call op k =>
    { w.go t (.idle (op.put rs r) k) with held := setAt w.held t ((Book.mk w.next (w.held t)).step op).vs, next := ((Book.mk w.next (w.held t)).step op).next }
  | .inr a, .ask i q k => { w.go t (.idle rs (k a)) with log := setAt w.log t (w.log t ++ (((w.held t)[i]?).map fun v => (q, v.2, a)).toList) }
  | _, _ => w

/-- A turn.  A call that has panicked ends its goroutine. -/
def Relay.step (I : OImpl D O R) (Rd : K → R → Prog D A) (w : Relay D O R K A M T) (t : T) : Relay D O R K A M T :=
  match w.gor t with
  | .idle rs e => w.act I Rd t rs e
  | .busy (.ret y) rs x => w.finish t rs y x
  | .busy p rs x => match p.step w.heap with
    | some (p', h') => { w.go t (.busy p' rs x) with heap := h' }
    | none => w

def Relay.exec (I : OImpl D O R) (Rd : K → R → Prog D A) (w : Relay D O R K A M T) : List T → Relay D O R K A M T
  | [] => w
  | t :: ts => (w.step I Rd t).exec I Rd ts

/-- Nobody holds a tree, nothing is on its way. -/
def Relay.start (job : T → Errand O K A M) : Relay D O R K A M T := ⟨.empty, fun t => .idle [] (job t), fun _ => [], fun _ => [], fun _ => [], 0, fun _ => []⟩

/-- What a goroutine may do at its turn: covered calls, and an in-place call only on a tree that shares its origin with no other tree held by anyone or on its way. -/
def Relay.Legal (I : OImpl D O R) (w : Relay D O R K A M T) (t : T) : Prop :=
  ∀ rs op k, w.gor t = .idle rs (.call op k) → (Book.mk w.next (w.held t)).Legal2 I.cowOk I.inpOk op ∧
    ∀ i o, op = .inp i o → ∀ v, (w.held t)[i]? = some v → (∀ u, u ≠ t → ∀ x ∈ w.held u, x.1 ≠ v.1) ∧ ∀ m, ∀ x ∈ w.post m, x.1 ≠ v.1

def Relay.LegalAll (I : OImpl D O R) (Rd : K → R → Prog D A) (w : Relay D O R K A M T) : List T → Prop
  | [] => True
  | t :: ts => w.Legal I t ∧ (w.step I Rd t).LegalAll I Rd ts

end

/-- What holds at any time: no call has panicked; every answer was right for the calls that made the tree asked; the trees held between calls and those on their way give the right answers;
no goroutine is about to write a cell another one is at; and no turn of another goroutine lengthens a call. -/
structure Relay.Fine [DecidableEq T] [DecidableEq M] (I : OImpl D O R) (Rd : K → R → Prog D A) (P : K → List O → A → Prop) (w : Relay D O R K A M T) : Prop where
  safe : ∀ t e rs x, w.gor t ≠ .busy (.stop e) rs x
  log : ∀ t q l a, (q, l, a) ∈ w.log t → P q l a
  held : ∀ t rs e, w.gor t = .idle rs e → rs.length = (w.held t).length ∧
    ∀ (i : Nat) r v q, rs[i]? = some r → (w.held t)[i]? = some v → ∃ x, (Rd q r).comes w.heap = .ok x ∧ P q v.2 x
  mail : ∀ m, (w.mail m).length = (w.post m).length ∧
    ∀ (i : Nat) r v q, (w.mail m)[i]? = some r → (w.post m)[i]? = some v → ∃ x, (Rd q r).comes w.heap = .ok x ∧ P q v.2 x
  norace : ∀ t u, u ≠ t → ∀ p rs x p' rs' x' a, w.gor t = .busy p rs x → w.gor u = .busy p' rs' x' → p.writes = some a → p'.reaches ≠ some a
  own : ∀ t p rs x, w.gor t = .busy p rs x → (∃ y, p = .ret y) ∨ ∃ p', (w.step I Rd t).gor t = .busy p' rs x ∧ p'.left (w.step I Rd t).heap + 1 = p.left w.heap
  others : ∀ t u, u ≠ t → ∀ p rs x, w.gor t = .busy p rs x → (w.step I Rd u).gor t = .busy p rs x ∧ p.left (w.step I Rd u).heap = p.left w.heap

/-! ## Trees in memory, up to the names of addresses -/

variable {I : OImpl D O R}

/-- A tree in the record of the proof: with the addresses it may use. -/
structure Item (R O : Type) where
  root : R
  foot : Addr → Prop
  org : Nat
  ops : List O

/-- In this memory the root is like one that is what its calls make. -/
def Alike (Z : I.Blind) (h : Heap D) (e : Item R O) : Prop :=
  ∃ (ρ : Addr → Addr → Prop) (g : Heap D) (r : R) (F : Addr → Prop), One ρ ∧ (∀ a b, ρ a b → a < h.next ∧ b < g.next) ∧ Cells ρ (Z.cellR ρ) h g ∧ Z.rootR ρ e.root r ∧
    I.Obj g r e.ops F ∧ ∀ a b, ρ a b → e.foot a

theorem Alike.frame {Z : I.Blind} {h h' : Heap D} {e : Item R O} (ha : Alike Z h e) (hn : h.next ≤ h'.next) (hm : ∀ a, a < h.next → e.foot a → h'.mem a = h.mem a) : Alike Z h' e := by
  obtain ⟨ρ, g, r, F, h1, h2, h3, h4, h5, h6⟩ := ha
  refine ⟨ρ, g, r, F, h1, fun a b k => ?_, fun a b k => ?_, h4, h5, h6⟩
  · have := h2 a b k; omega
  · rw [hm a (h2 a b k).1 (h6 a b k)]; exact h3 a b k

theorem Alike.reads {Z : I.Blind} {h : Heap D} {e : Item R O} (ha : Alike Z h e) {n : Nat} {Rd : K → R → Prog D A} {P : K → List O → A → Prop} {AR : (Addr → Addr → Prop) → A → A → Prop}
    (hRd : ∀ ρ, One ρ → ∀ k r r', Z.rootR ρ r r' → (Rd k r).Sim ρ (Z.cellR ρ) (AR ρ) (Rd k r')) (hP : ∀ ρ k l x y, AR ρ x y → P k l y → P k l x)
    (hR : ∀ k h r l F, l.length ≤ n → I.Obj h r l F → wp (fun _ => False) (Rd k r) (fun x h' => h' = h ∧ P k l x) h) (hn : e.ops.length ≤ n) (q : K) :
    ∃ x, (Rd q e.root).comes h = .ok x ∧ P q e.ops x := by
  obtain ⟨ρ, g, r, F, h1, h2, h3, h4, h5, h6⟩ := ha
  obtain ⟨x, _, hx1, _, hx2⟩ := comes_wp (hR q g r e.ops F hn h5)
  obtain ⟨τ, hτ⟩ := abreast_comes (Z := Z) (P := AR) (p := Rd q e.root) (q := Rd q r) (fun τ hτ ho => hRd τ ho q e.root r (Z.root_mono hτ h4)) h1 h2 h3
  rw [← comes_out, ← comes_out, hx1] at hτ
  cases hc : (Rd q e.root).comes h with
  | error x => rw [hc] at hτ; exact hτ.elim
  | ok z => rw [hc] at hτ; exact ⟨z, rfl, hP τ q _ z x hτ hx2⟩

/-- Results of calls, up to the names of addresses. -/
def SumR (Z : I.Blind) (AR : (Addr → Addr → Prop) → A → A → Prop) (ρ : Addr → Addr → Prop) : R ⊕ A → R ⊕ A → Prop
  | .inl r, .inl s => Z.rootR ρ r s
  | .inr a, .inr b => AR ρ a b
  | _, _ => False

/-- A call under way beside the same call alone.  `F`: the addresses of the tree called; `N`: those of nodes the call has made.  It writes into `N` only, or it is in place. -/
def Aloft (Z : I.Blind) (AR : (Addr → Addr → Prop) → A → A → Prop) (ip : Bool) (p : Prog D (R ⊕ A)) (h : Heap D) (F N : Addr → Prop) (Q : R ⊕ A → Heap D → Prop) : Prop :=
  ∃ (ρ : Addr → Addr → Prop) (q : Prog D (R ⊕ A)) (g : Heap D) (n0 : Nat) (W : Addr → Prop), Abreast Z ρ (SumR Z AR) p q ∧ One ρ ∧ (∀ a b, ρ a b → a < h.next ∧ b < g.next) ∧
    Cells ρ (Z.cellR ρ) h g ∧ wp W q Q g ∧ n0 ≤ g.next ∧ (∀ a b, ρ a b → (b < n0 ∧ F a) ∨ (n0 ≤ b ∧ N a)) ∧ (ip = false → ∀ b, W b → n0 ≤ b)

variable {Z : I.Blind} {AR : (Addr → Addr → Prop) → A → A → Prop} {ip : Bool} {p : Prog D (R ⊕ A)} {h : Heap D} {F N : Addr → Prop} {Q : R ⊕ A → Heap D → Prop}

theorem wp_writes {W : Addr → Prop} {α : Type} {q : Prog D α} {Q : α → Heap D → Prop} {g : Heap D} (hp : wp W q Q g) {b : Addr} (hb : q.writes = some b) : W b := by
  cases q <;> simp only [Prog.writes] at hb <;> cases hb
  exact hp.1

theorem Aloft.step (ha : Aloft Z AR ip p h F N Q) {p' : Prog D (R ⊕ A)} {h' : Heap D} (hs : p.step h = some (p', h')) :
    Aloft Z AR ip p' h' F (fun a => N a ∨ (h.next ≤ a ∧ a < h'.next)) Q ∧ h.next ≤ h'.next ∧ ∀ x, x < h.next → h'.mem x = h.mem x ∨ N x ∨ (ip = true ∧ F x) := by
  obtain ⟨ρ, q, g, n0, W, h1, h2, h3, h4, h5, h6, h7, h8⟩ := ha
  obtain ⟨σ, q1, g1, k1, k2, k3, k4, k5, k6, k7, k8, k9⟩ := kept_step h1 h2 h3 h4 hs
  refine ⟨⟨σ, q1, g1, n0, W, k2, k3, k4, k5, (step_solo h5 k1).1, Nat.le_trans h6 k8, fun a b k => ?_, h8⟩, k6, fun x hx => ?_⟩
  · rcases k7 a b k with k' | ⟨k', k''⟩
    · rcases h7 a b k' with c | c
      · exact .inl c
      · exact .inr ⟨c.1, .inl c.2⟩
    · exact .inr ⟨Nat.le_trans h6 k'', .inr ⟨k', (k4 a b k).1⟩⟩
  · rcases k9 x hx with k | ⟨b, hb, hw⟩
    · exact .inl k
    · right
      rcases h7 x b hb with ⟨c1, c2⟩ | c
      · cases ip with
        | false => have := h8 rfl b (wp_writes h5 hw); omega
        | true => exact .inr ⟨rfl, c2⟩
      · exact .inl c.2

theorem Aloft.frame (ha : Aloft Z AR ip p h F N Q) {h' : Heap D} (hn : h.next ≤ h'.next) (hm : ∀ a, a < h.next → F a ∨ N a → h'.mem a = h.mem a) : Aloft Z AR ip p h' F N Q := by
  obtain ⟨ρ, q, g, n0, W, h1, h2, h3, h4, h5, h6, h7, h8⟩ := ha
  refine ⟨ρ, q, g, n0, W, h1, h2, fun a b k => ?_, fun a b k => ?_, h5, h6, h7, h8⟩
  · have := h3 a b k; omega
  · rw [hm a (h3 a b k).1 ((h7 a b k).imp And.right And.right)]; exact h4 a b k

theorem Aloft.fine (ha : Aloft Z AR ip p h F N Q) (e : Err) : p ≠ .stop e := by
  rintro rfl
  obtain ⟨ρ, q, g, n0, W, h1, h2, h3, h4, h5, h6, h7, h8⟩ := ha
  have h0 := h1 ρ (fun _ _ k => k) h2
  cases q with
  | stop e' => exact h5
  | _ => exact h0.elim

theorem Aloft.reaches (ha : Aloft Z AR ip p h F N Q) {a : Addr} (hr : p.reaches = some a) : F a ∨ N a := by
  obtain ⟨ρ, q, g, n0, W, h1, h2, h3, h4, h5, h6, h7, h8⟩ := ha
  have h0 := h1 ρ (fun _ _ k => k) h2
  cases p with
  | read x k =>
    cases q with
    | read y l => cases hr; exact (h7 _ _ h0.1).imp And.right And.right
    | _ => exact h0.elim
  | write x c k =>
    cases q with
    | write y d l => cases hr; exact (h7 _ _ h0.1).imp And.right And.right
    | _ => exact h0.elim
  | ret x => cases hr
  | stop x => cases hr
  | alloc x k => cases hr

theorem Aloft.writes (ha : Aloft Z AR ip p h F N Q) {a : Addr} (hr : p.writes = some a) : N a ∨ (ip = true ∧ F a) := by
  obtain ⟨ρ, q, g, n0, W, h1, h2, h3, h4, h5, h6, h7, h8⟩ := ha
  have h0 := h1 ρ (fun _ _ k => k) h2
  cases p with
  | write x c k =>
    cases q with
    | write y d l =>
      cases hr
      rcases h7 _ _ h0.1 with ⟨c1, c2⟩ | c
      · cases ip with
        | false => have := h8 rfl y (wp_writes h5 rfl); omega
        | true => exact .inr ⟨rfl, c2⟩
      · exact .inl c.2
    | _ => exact h0.elim
  | _ => cases hr

/-- Two programs abreast have as many accesses before them. -/
theorem left_abreast {β : Type} {P : (Addr → Addr → Prop) → β → β → Prop} {p : Prog D β} : ∀ {q : Prog D β} {h g : Heap D} {ρ : Addr → Addr → Prop}, Abreast Z ρ P p q → One ρ →
    (∀ a b, ρ a b → a < h.next ∧ b < g.next) → Cells ρ (Z.cellR ρ) h g → p.left h = q.left g := by
  have base : ∀ {p q : Prog D β} {h g : Heap D} {ρ : Addr → Addr → Prop}, Abreast Z ρ P p q → One ρ → p.step h = none → p.left h = q.left g := by
    intro p q h g ρ hk ho hs
    have h0 := hk ρ (fun _ _ k => k) ho
    cases p with
    | ret x =>
      cases q with
      | ret y => rfl
      | _ => exact h0.elim
    | stop x =>
      cases q with
      | stop y => rfl
      | _ => exact h0.elim
    | read a k =>
      simp only [Prog.step] at hs
      split at hs <;> cases hs
    | write a c k => cases hs
    | alloc c k => cases hs
  have one : ∀ {p q : Prog D β} {h g : Heap D} {ρ : Addr → Addr → Prop}, Abreast Z ρ P p q → One ρ → (∀ a b, ρ a b → a < h.next ∧ b < g.next) → Cells ρ (Z.cellR ρ) h g →
      (∀ p1 h1, p.step h = some (p1, h1) → ∀ {q1 : Prog D β} {g1 : Heap D} {σ : Addr → Addr → Prop}, Abreast Z σ P p1 q1 → One σ → (∀ a b, σ a b → a < h1.next ∧ b < g1.next) →
        Cells σ (Z.cellR σ) h1 g1 → p1.left h1 = q1.left g1) → p.left h = q.left g := by
    intro p q h g ρ hk ho hl hc ih
    cases hs : p.step h with
    | none => exact base hk ho hs
    | some x =>
      obtain ⟨p1, h1⟩ := x
      obtain ⟨σ, q1, g1, k1, k2, k3, k4, k5, _⟩ := kept_step hk ho hl hc hs
      have := ih p1 h1 hs k2 k3 k4 k5
      have := (step_out hs).2
      have := (step_out k1).2
      omega
  induction p with
  | ret x => exact fun hk ho _ _ => base hk ho rfl
  | stop x => exact fun hk ho _ _ => base hk ho rfl
  | read a k ih =>
    intro q h g ρ hk ho hl hc
    refine one hk ho hl hc fun p1 h1 hs => ?_
    simp only [Prog.step] at hs
    cases e : h.mem a with
    | none => rw [e] at hs; cases hs; exact fun hk ho _ _ => base hk ho rfl
    | some c => rw [e] at hs; cases hs; exact ih c
  | write a c k ih =>
    intro q h g ρ hk ho hl hc
    refine one hk ho hl hc fun p1 h1 hs => ?_
    cases hs; exact ih
  | alloc c k ih =>
    intro q h g ρ hk ho hl hc
    refine one hk ho hl hc fun p1 h1 hs => ?_
    cases hs; exact ih _

theorem Aloft.left (ha : Aloft Z AR ip p h F N Q) {h' : Heap D} (hn : h.next ≤ h'.next) (hm : ∀ a, a < h.next → F a ∨ N a → h'.mem a = h.mem a) : p.left h' = p.left h := by
  obtain ⟨ρ, q, g, n0, W, h1, h2, h3, h4, h5, h6, h7, h8⟩ := ha
  rw [left_abreast h1 h2 h3 h4]
  refine left_abreast h1 h2 (fun a b k => ?_) fun a b k => ?_
  · have := h3 a b k; omega
  · rw [hm a (h3 a b k).1 ((h7 a b k).imp And.right And.right)]; exact h4 a b k

theorem Aloft.ret {y : R ⊕ A} (ha : Aloft Z AR ip (.ret y) h F N Q) : ∃ (ρ : Addr → Addr → Prop) (x : R ⊕ A) (g : Heap D), One ρ ∧ (∀ a b, ρ a b → a < h.next ∧ b < g.next) ∧
    Cells ρ (Z.cellR ρ) h g ∧ SumR Z AR ρ y x ∧ Q x g ∧ ∀ a b, ρ a b → F a ∨ N a := by
  obtain ⟨ρ, q, g, n0, W, h1, h2, h3, h4, h5, h6, h7, h8⟩ := ha
  have h0 := h1 ρ (fun _ _ k => k) h2
  cases q with
  | ret x => exact ⟨ρ, x, g, h2, h3, h4, h0, h5, fun a b k => (h7 a b k).imp And.right And.right⟩
  | _ => exact h0.elim

end Verif.Heap
