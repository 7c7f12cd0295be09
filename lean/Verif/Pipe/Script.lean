import Verif.Pipe.Zone

/-!
# Scripts with loops

A caller that makes calls on trees it holds and loops over `Enumerate` of any of them, with calls and further loops in the loop
body.
-/

namespace Verif.Pipe
open Verif.Heap Verif.Heap.Prog

variable {D O R K A B E α : Type}

/-- A script: calls as in histories, reads (`TOp`), and loops `for e := range trees[i].Enumerate() { body(e) }`. -/
inductive Script (O K E : Type) where
  | done
  | call (op : SOp O) (rest : Script O K E)
  | read (i : Nat) (k : K) (rest : Script O K E)
  | each (i : Nat) (body : E → Script O K E) (rest : Script O K E)

/-- The code of a loop: starting a goroutine with a channel of `B`, and what the loop body reads off a received value. -/
structure Loop (D R B E : Type) where
  gen : R → Gen (Cell D) B
  item : B → Prog D E
  rounds : Nat

/-- The script as code of a caller.  The state is the answers of the reads so far and the roots. -/
def Script.main (I : OImpl D O R) (Rd : K → R → Prog D A) (Lp : Loop D R B E) : Script O K E → List (Option A) × List R →
    (List (Option A) × List R → Main D (Cell D) B α) → Main D (Cell D) B α
  | .done, s, k => k s
  | .call op t, s, k => .prog (stepP I s.2 op) fun rs => t.main I Rd Lp (s.1, rs) k
  | .read i q t, s, k => match s.2[i]? with
    | none => t.main I Rd Lp (s.1 ++ [none], s.2) k
    | some r => .prog (Rd q r) fun a => t.main I Rd Lp (s.1 ++ [some a], s.2) k
  | .each i body t, s, k => match s.2[i]? with
    | none => t.main I Rd Lp s k
    | some r => Main.rangeGo (Lp.gen r) (fun b s k => .prog (Lp.item b) fun e => (body e).main I Rd Lp s k) Lp.rounds s fun s => t.main I Rd Lp s k

/-! ## What the script must do -/

/-- The body for the elements of a list in order: `l` are all the steps made. -/
def Rounds (body : E → Book O → List (TOp O K) → Prop) : List E → Book O → List (TOp O K) → Prop
  | [], _, l => l = []
  | e :: es, b, l => ∃ l1 l2, l = l1 ++ l2 ∧ body e b l1 ∧ Rounds body es (b.after l1) l2

/-- The steps without loops: a loop runs over the entries (`L`) the tree has when the loop starts, whatever the body does. -/
def Script.Unrolls (L : List O → List E → Prop) : Script O K E → Book O → List (TOp O K) → Prop
  | .done, _, l => l = []
  | .call op t, b, l => ∃ l', l = .call op :: l' ∧ t.Unrolls L (b.step op) l'
  | .read i q t, b, l => ∃ l', l = .read i q :: l' ∧ t.Unrolls L b l'
  | .each i body t, b, l => match b.vs[i]? with
    | none => t.Unrolls L b l
    | some v => ∃ es l1 l2, L v.2 es ∧ Rounds (fun e => (body e).Unrolls L) es b l1 ∧ t.Unrolls L (b.after l1) l2 ∧ l = l1 ++ l2

/-- The body is legal in every round. -/
def RoundsLegal (run : E → Book O → List (TOp O K) → Prop) (legal : E → Book O → Nat → Prop) : List E → Book O → Nat → Prop
  | [], _, _ => True
  | e :: es, b, m => legal e b m ∧ ∀ l, run e b l → RoundsLegal run legal es (b.after l) (m + l.length)

/-- In-place calls not on a tree with an origin in `busy`. -/
def NotBusy (busy : List Nat) (b : Book O) : SOp O → Prop
  | .inp i _ => ∀ v, b.vs[i]? = some v → v.1 ∉ busy
  | _ => True

/-- A script may do what histories may do, except calls in place on a tree that has a common origin with one that a loop around the
call runs over.  `m` steps have been made; how many there may be is given by `N`. -/
def Script.Legal (ok iok : List O → O → Prop) (L : List O → List E → Prop) (N : Nat → Prop) : Script O K E → List Nat → Book O → Nat → Prop
  | .done, _, _, _ => True
  | .call op t, busy, b, m => N (m + 1) ∧ b.Legal2 ok iok op ∧ NotBusy busy b op ∧ t.Legal ok iok L N busy (b.step op) (m + 1)
  | .read _ _ t, busy, b, m => t.Legal ok iok L N busy b (m + 1)
  | .each i body t, busy, b, m => match b.vs[i]? with
    | none => t.Legal ok iok L N busy b m
    | some v => ∀ es, L v.2 es → RoundsLegal (fun e => (body e).Unrolls L) (fun e => (body e).Legal ok iok L N (v.1 :: busy)) es b m ∧
      ∀ l, Rounds (fun e => (body e).Unrolls L) es b l → t.Legal ok iok L N busy (b.after l) (m + l.length)

theorem Book.after_append (b : Book O) (l1 l2 : List (TOp O K)) : b.after (l1 ++ l2) = (b.after l1).after l2 := by
  induction l1 generalizing b with
  | nil => rfl
  | cons x l ih => cases x <;> exact ih _

theorem Book.answers_append {P : K → List O → A → Prop} {b : Book O} {l1 l2 : List (TOp O K)} {xs ys : List (Option A)} (h1 : b.Answers P l1 xs)
    (h2 : (b.after l1).Answers P l2 ys) : b.Answers P (l1 ++ l2) (xs ++ ys) := by
  induction l1 generalizing b xs with
  | nil => rw [Book.Answers] at h1; subst h1; exact h2
  | cons x l ih =>
    cases x with
    | call op => exact ih h1 h2
    | read i k =>
      obtain ⟨x, zs, rfl, a1, a2⟩ := h1
      exact ⟨x, zs ++ ys, rfl, ih a1 h2, a2⟩

/-- What has to be proved about a loop. -/
structure Loop.Lawful (Lp : Loop D R B E) (I : OImpl D O R) (L : List O → List E → Prop) (n : Nat) : Prop where
  ok : ∀ {h r l F}, l.length ≤ n → I.Obj h r l F → ∃ bs es k, (Lp.gen r).out (pinOf id h F) [] = some (bs, k) ∧ bs.length < Lp.rounds ∧ L l es ∧
    bs.length = es.length ∧ ∀ (j : Nat) b e, bs[j]? = some b → es[j]? = some e → ∀ h' : Heap D, (∀ a, F a → h'.mem a = h.mem a) →
      wp (fun _ => False) (Lp.item b) (fun x h2 => h2 = h' ∧ x = e) h'

/-- Goroutines under way walk trees with an origin in `busy`. -/
def Walk (q : Chans (Cell D) B) (Z : Nat → Addr → Prop) (busy : List Nat) : Prop :=
  ∀ p l a, some (p, l) ∈ q → p a ≠ none → ∃ o ∈ busy, Z o a

theorem Walk.avoids {q : Chans (Cell D) B} {Z : Nat → Addr → Prop} {busy : List Nat} (hq : Walk q Z busy) {b : Book O} {nx : Nat} {op : SOp O}
    (h4 : ∀ o x, Z o x → x < nx ∧ o < b.next) (h5 : ∀ o o' x, Z o x → Z o' x → o = o') (hn : NotBusy busy b op) : Avoids q (Writes b Z nx op) := by
  intro p l a hp ha
  cases hpa : p a with
  | none => rfl
  | some c =>
    exfalso
    obtain ⟨o, ho, hz⟩ := hq p l a hp (by simp [hpa])
    rcases ha with ha | ⟨i, x, v, rfl, hv, hz'⟩
    · have := (h4 o a hz).1; omega
    · rw [h5 _ _ a hz hz'] at ho
      exact hn v hv ho

theorem Walk.mono {q : Chans (Cell D) B} {Z Z' : Nat → Addr → Prop} {busy : List Nat} (hq : Walk q Z busy) (hz : ∀ o x, Z o x → Z' o x) : Walk q Z' busy := by
  intro p l a hp ha
  obtain ⟨o, ho, h⟩ := hq p l a hp ha
  exact ⟨o, ho, hz o a h⟩

/-- Cells that goroutines under way may read stay. -/
def Stays (busy : List Nat) (Z : Nat → Addr → Prop) (h h' : Heap D) : Prop := ∀ o ∈ busy, ∀ a, Z o a → h'.mem a = h.mem a

theorem writes_above {n0 base nx : Nat} {Z : Nat → Addr → Prop} {busy : List Nat} {b : Book O} {op : SOp O} (hg : base ≤ nx ∧ ∀ o x, Z o x → n0 ≤ o → base ≤ x)
    (hb : ∀ o, o < n0 → o ∈ busy) (hn : NotBusy busy b op) (a : Addr) (hw : Writes b Z nx op a) : base ≤ a := by
  rcases hw with h | ⟨i, o, v, rfl, hv, hz⟩
  · exact Nat.le_trans hg.1 h
  · refine hg.2 _ a hz (Nat.le_of_not_lt fun h => ?_)
    exact hn v hv (hb _ h)

theorem script_does {I : OImpl D O R} {N : Nat → Prop} (hI : ∀ n, N n → I.Lawful n) (Rd : K → R → Prog D A) (P : K → List O → A → Prop)
    (hR : ∀ n, N n → ∀ k h r l F, l.length ≤ n → I.Obj h r l F → wp (fun _ => False) (Rd k r) (fun x h' => h' = h ∧ P k l x) h)
    {Lp : Loop D R B E} {L : List O → List E → Prop} (hL : ∀ n, N n → Lp.Lawful I L n) {Q : α → Heap D → Prop} {n0 base : Nat} (sc : Script O K E) :
    ∀ {busy : List Nat} {b : Book O} {m : Nat} {h : Heap D} {ans : List (Option A)} {rs : List R} {Z : Nat → Addr → Prop} {q : Chans (Cell D) B}
      {k : List (Option A) × List R → Main D (Cell D) B α},
      sc.Legal I.cowOk I.inpOk L N busy b m → (∃ m0, m0 ≤ m ∧ (∃ n, m0 ≤ n ∧ N n) ∧ ZInv I n0 base m0 h rs b Z) → Walk q Z busy → (∀ o, o < n0 → o ∈ busy) →
      (∀ l xs rs' h' Z', sc.Unrolls L b l → b.Answers P l xs → (∃ m0, m0 ≤ m + l.length ∧ (∃ n, m0 ≤ n ∧ N n) ∧ ZInv I n0 base m0 h' rs' (b.after l) Z') → (∀ o x, Z o x → Z' o x) →
        Stays busy Z h h' → DoesIn base id Q q (k (ans ++ xs, rs')) h') →
      DoesIn base id Q q (sc.main I Rd Lp (ans, rs) k) h := by
  induction sc with
  | done =>
    intro busy b m h ans rs Z q k _ hz hq _ hk
    have := hk [] [] rs h Z rfl rfl (by simpa [Book.after] using hz) (fun _ _ h => h) fun _ _ _ _ => rfl
    simpa [Script.main] using this
  | call op t ih =>
    rintro busy b m h ans rs Z q k ⟨l1, l2, l3, l4⟩ ⟨m0, m1, m2, hz⟩ hq hn hk
    have hz' := hz
    obtain ⟨T, hg, _, _, _, _, h4, h5⟩ := hz'
    refine does_prog (wp_frame (zstep (hI _ l1) (by omega) hz op l2)) (hq.avoids h4 h5 l3) (writes_above hg hn l3) ?_
    rintro rs' h' ⟨⟨Z', hz', hs⟩, _, fr, _⟩
    have st : Stays busy Z h h' := by
      intro o ho a ha
      refine fr a (h4 o a ha).1 ?_
      rintro (hw | ⟨i, x, v, rfl, hv, hw⟩)
      · have := (h4 o a ha).1; omega
      · rw [h5 _ _ a ha hw] at ho
        exact l3 v hv ho
    refine ih l4 ⟨m0 + 1, by omega, ⟨m + 1, by omega, l1⟩, hz'⟩ (hq.mono hs) hn ?_
    rintro l xs rs2 h2 Z2 hu ha ⟨m3, m4, m5, hz2⟩ hs2 st2
    exact hk (.call op :: l) xs rs2 h2 Z2 ⟨l, rfl, hu⟩ ha ⟨m3, by simp; omega, m5, hz2⟩ (fun o x hx => hs2 o x (hs o x hx))
      fun o ho a ha => (st2 o ho a (hs o a ha)).trans (st o ho a ha)
  | read i kk t ih =>
    rintro busy b m h ans rs Z q k hl ⟨m0, m1, m2, hz⟩ hq hn hk
    have hz' := hz
    obtain ⟨T, _, _, h1, h2, h3, h4, h5⟩ := hz'
    cases hT : T[i]? with
    | none =>
      have e1 : rs[i]? = none := by simp [h1, hT]
      have e2 : b.vs[i]? = none := by simp [h2, hT]
      simp only [Script.main, e1]
      refine ih hl ⟨m0, by omega, m2, hz⟩ hq hn ?_
      rintro l xs rs2 h2 Z2 hu ha ⟨m3, m4, m5, hz2⟩ hs2 st2
      have := hk (.read i kk :: l) (none :: xs) rs2 h2 Z2 ⟨l, rfl, hu⟩ ⟨none, xs, rfl, ha, by simp only [e2]⟩ ⟨m3, by simp; omega, m5, hz2⟩ hs2 st2
      simpa using this
    | some t' =>
      have e1 : rs[i]? = some t'.1.1 := by simp [h1, hT]
      have e2 : b.vs[i]? = some t'.2 := by simp [h2, hT]
      obtain ⟨a1, _, a5, _⟩ := h3 t' (List.mem_of_getElem? hT)
      simp only [Script.main, e1]
      obtain ⟨n, n1, n2⟩ := m2
      refine does_prog (hR n n2 kk h t'.1.1 t'.2.2 t'.1.2 (by omega) a1) (fun _ _ _ _ hf => hf.elim) (fun _ hf => hf.elim) ?_
      rintro a _ ⟨rfl, hP⟩
      refine ih hl ⟨m0, by omega, ⟨n, n1, n2⟩, hz⟩ hq hn ?_
      rintro l xs rs2 h2 Z2 hu ha ⟨m3, m4, m5, hz2⟩ hs2 st2
      have := hk (.read i kk :: l) (some a :: xs) rs2 h2 Z2 ⟨l, rfl, hu⟩ ⟨some a, xs, rfl, ha, by simp only [e2]; exact ⟨a, rfl, hP⟩⟩ ⟨m3, by simp; omega, m5, hz2⟩ hs2 st2
      simpa using this
  | each i body t ihb iht =>
    rintro busy b m h ans rs Z q k hl ⟨m0, m1, m2, hz⟩ hq hn hk
    have hz' := hz
    obtain ⟨T, _, _, h1, h2, h3, h4, h5⟩ := hz'
    cases hT : T[i]? with
    | none =>
      have e1 : rs[i]? = none := by simp [h1, hT]
      have e2 : b.vs[i]? = none := by simp [h2, hT]
      simp only [Script.main, e1]
      simp only [Script.Legal, e2] at hl
      refine iht hl ⟨m0, m1, m2, hz⟩ hq hn ?_
      intro l xs rs2 h2 Z2 hu
      exact hk l xs rs2 h2 Z2 (by simp only [Script.Unrolls, e2]; exact hu)
    | some t' =>
      have e1 : rs[i]? = some t'.1.1 := by simp [h1, hT]
      have e2 : b.vs[i]? = some t'.2 := by simp [h2, hT]
      obtain ⟨a1, _, a5, a6⟩ := h3 t' (List.mem_of_getElem? hT)
      obtain ⟨n, n1, n2⟩ := m2
      obtain ⟨bs, es, c, g1, g2, g3, g4, g5⟩ := (hL n n2).ok (by omega) a1
      simp only [Script.main, e1]
      simp only [Script.Legal, e2] at hl
      obtain ⟨hl1, hl2⟩ := hl es g3
      -- the state of the loop: `l0` are the steps so far, `bs1` what is still to come
      let Inv : List B → List (Option A) × List R → Heap D → Prop := fun bs1 s h' => ∃ es0 es1 l0 xs0 Z' m0, es = es0 ++ es1 ∧ bs1 = bs.drop es0.length ∧
        b.Answers P l0 xs0 ∧ s.1 = ans ++ xs0 ∧ m0 ≤ m + l0.length ∧ (∃ n, m0 ≤ n ∧ N n) ∧ ZInv I n0 base m0 h' s.2 (b.after l0) Z' ∧ (∀ o x, Z o x → Z' o x) ∧
        Stays (t'.2.1 :: busy) Z h h' ∧
        (∀ l, Rounds (fun e => (body e).Unrolls L) es1 (b.after l0) l → Rounds (fun e => (body e).Unrolls L) es b (l0 ++ l)) ∧
        RoundsLegal (fun e => (body e).Unrolls L) (fun e => (body e).Legal I.cowOk I.inpOk L N (t'.2.1 :: busy)) es1 (b.after l0) (m + l0.length)
      refine does_rangeGo (R := Inv) (pin := pinOf id h t'.1.2) (pinOf_holds fun a ha => (hI n n2).lt a1 ha) g1 g2 ?_ ?_ ?_
      · exact ⟨[], es, [], [], Z, m0, rfl, by simp, rfl, by simp, by simpa using m1, ⟨n, n1, n2⟩, hz, fun _ _ h => h, fun _ _ _ _ => rfl, fun l hl => hl, by simpa [Book.after] using hl1⟩
      · rintro b1 bs1 ⟨s1, s2⟩ h' q' k' hw ⟨es0, es1, l0, xs0, Z', m3, c1, c2, c3, c4, c5, c6, c7, c8, c9, c10, c11⟩ hk'
        have hj : bs[es0.length]? = some b1 := by
          have := congrArg (fun l => l[0]?) c2
          simpa using this.symm
        cases es1 with
        | nil =>
          have := (List.getElem?_eq_some_iff.1 hj).1
          simp only [List.append_nil] at c1
          rw [g4, c1] at this; omega
        | cons e es1 =>
          have he : es[es0.length]? = some e := by simp [c1]
          have hit := g5 _ _ _ hj he h' fun a ha => c9 t'.2.1 (by simp) a (a6 a ha)
          refine does_prog hit (fun _ _ _ _ hf => hf.elim) (fun _ hf => hf.elim) ?_
          rintro e' _ ⟨rfl, rfl⟩
          simp only at c4
          subst c4
          refine ihb e' c11.1 ⟨m3, c5, c6, c7⟩ (busy := t'.2.1 :: busy) (Z := Z') ?_ (fun o ho => by simp [hn o ho]) ?_
          · intro p l a hp ha
            rcases hw p l hp with rfl | ⟨l', hl'⟩
            · refine ⟨t'.2.1, by simp, c8 _ _ (a6 a ?_)⟩
              refine Classical.byContradiction fun hn => ha (pinOf_none hn)
            · obtain ⟨o, ho, hx⟩ := hq p l' a hl' ha
              exact ⟨o, by simp [ho], c8 _ _ hx⟩
          · rintro l xs rs' h2 Z2 hu ha ⟨m4, m5, m6, hz2⟩ hs2 st2
            refine hk' _ _ ⟨es0 ++ [e'], es1, l0 ++ l, xs0 ++ xs, Z2, m4, by simp [c1], ?_, Book.answers_append c3 ha, by simp, by simp; omega, m6, ?_, fun o x hx => hs2 o x (c8 o x hx), ?_, ?_, ?_⟩
            · have := congrArg List.tail c2
              simpa using this
            · rw [Book.after_append]; exact hz2
            · exact fun o ho a hx => (st2 o ho a (c8 o a hx)).trans (c9 o ho a hx)
            · intro l' hl'
              rw [Book.after_append] at hl'
              have := c10 (l ++ l') ⟨l, l', rfl, hu, hl'⟩
              rw [List.append_assoc]; exact this
            · have := c11.2 l hu
              rw [Book.after_append, List.length_append, ← Nat.add_assoc]; exact this
      · rintro ⟨s1, s2⟩ h' ⟨es0, es1, l0, xs0, Z', m3, c1, c2, c3, c4, c5, c6, c7, c8, c9, c10, c11⟩
        simp only at c4
        subst c4
        have h0 : es1 = [] := by
          have e3 := congrArg List.length c2
          have e4 := congrArg List.length c1
          simp only [List.length_nil, List.length_drop, List.length_append] at e3 e4
          exact List.eq_nil_of_length_eq_zero (by omega)
        subst h0
        have hr := c10 [] rfl
        rw [List.append_nil] at hr
        refine iht (hl2 l0 hr) ⟨m3, c5, c6, c7⟩ (hq.mono c8) hn ?_
        rintro l xs rs' h2 Z2 hu ha ⟨m4, m5, m6, hz2⟩ hs2 st2
        have := hk (l0 ++ l) (xs0 ++ xs) rs' h2 Z2 (by simp only [Script.Unrolls, e2]; exact ⟨es, l0, l, g3, hr, hu, rfl⟩) (Book.answers_append c3 ha)
          ⟨m4, by simp; omega, m6, by rw [Book.after_append]; exact hz2⟩ (fun o x hx => hs2 o x (c8 o x hx))
          fun o ho a hx => (st2 o ho a (c8 o a hx)).trans (c9 o (by simp [ho]) a hx)
        simpa using this

/-- What a caller sees at the end of a script: the reads got the answers of the steps without loops, and the trees held are those these
steps make. -/
def Comes (P : K → List O → A → Prop) (Ob : Heap D → R → List O → Prop) (L : List O → List E → Prop) (b : Book O) (sc : Script O K E) (x : List (Option A) × List R)
    (h : Heap D) : Prop :=
  ∃ l, sc.Unrolls L b l ∧ b.Answers P l x.1 ∧ x.2.length = (b.after l).vs.length ∧ ∀ (i : Nat) r v, x.2[i]? = some r → (b.after l).vs[i]? = some v → Ob h r v.2

/-- A legal script from the trees held, in any schedule of the caller and the goroutines. -/
theorem zinv_script {I : OImpl D O R} {N : Nat → Prop} (hI : ∀ n, N n → I.Lawful n) (Rd : K → R → Prog D A) (P : K → List O → A → Prop) (Ob : Heap D → R → List O → Prop)
    (hR : ∀ n, N n → ∀ k h r l F, l.length ≤ n → I.Obj h r l F → wp (fun _ => False) (Rd k r) (fun x h' => h' = h ∧ P k l x) h)
    (hO : ∀ n, N n → ∀ h r l F, l.length ≤ n → I.Obj h r l F → Ob h r l) {Lp : Loop D R B E} {L : List O → List E → Prop} (hL : ∀ n, N n → Lp.Lawful I L n) (sc : Script O K E)
    {n0 base m : Nat} {h : Heap D} {rs : List R} {b : Book O} {Z : Nat → Addr → Prop} (hn : N m) (hz : ZInv I n0 base m h rs b Z)
    (hs : sc.Legal I.cowOk I.inpOk L N (List.range n0) b m) : DoesIn base id (Comes P Ob L b sc) [] (sc.main I Rd Lp ([], rs) .ret) h := by
  refine script_does hI Rd P hR hL sc (b := b) (m := m) hs ⟨_, by omega, ⟨_, by omega, hn⟩, hz⟩ (q := []) (fun _ _ _ h => by simp at h) (fun o ho => by simpa using ho) ?_
  rintro l xs rs' h' Z' hu ha ⟨m0, _, ⟨n, n1, n2⟩, T, _, _, h1, h2, h3, _⟩ _ _
  refine does_ret ⟨l, hu, by simpa using ha, by simp [h1, h2], fun i r v hr hv => ?_⟩
  simp only at hr
  rw [h1, List.getElem?_map] at hr
  rw [h2, List.getElem?_map] at hv
  cases hT : T[i]? with
  | none => rw [hT] at hr; cases hr
  | some t =>
    rw [hT] at hr hv
    cases hr; cases hv
    obtain ⟨a1, _, a2, _⟩ := h3 t (List.mem_of_getElem? hT)
    exact hO n n2 _ _ _ _ (Nat.le_trans a2 n1) a1

/-- After any legal history, a legal script with loops, in any schedule of the caller and the goroutines: it ends, nothing panics, no
goroutine is left, the reads get the answers of the steps without loops, and the trees held at the end are those these steps make. -/
theorem obj_script {I : OImpl D O R} {N : Nat → Prop} (hI : ∀ n, N n → I.Lawful n) (ops : List (SOp O)) (hn : N ops.length)
    (hl : (Book.init : Book O).LegalAll2 I.cowOk I.inpOk ops) (Rd : K → R → Prog D A) (P : K → List O → A → Prop) (Ob : Heap D → R → List O → Prop)
    (hR : ∀ n, N n → ∀ k h r l F, l.length ≤ n → I.Obj h r l F → wp (fun _ => False) (Rd k r) (fun x h' => h' = h ∧ P k l x) h)
    (hO : ∀ n, N n → ∀ h r l F, l.length ≤ n → I.Obj h r l F → Ob h r l) {Lp : Loop D R B E} {L : List O → List E → Prop} (hL : ∀ n, N n → Lp.Lawful I L n) (sc : Script O K E)
    (hs : sc.Legal I.cowOk I.inpOk L N [] (Book.init.exec ops) ops.length) :
    ∃ s, OStore.init.exec I ops = .ok s ∧ Ends id (sc.main I Rd Lp ([], s.roots) .ret) s.heap (Comes P Ob L (Book.init.exec ops) sc) := by
  obtain ⟨s, e, i1⟩ := oexec_inv (hI _ hn) (oinv_init I) ops (by omega) hl
  obtain ⟨Z, hz⟩ := OInv.zinv (hI _ hn) i1
  rw [Nat.zero_add] at hz
  exact ⟨s, e, (zinv_script hI Rd P Ob hR hO hL sc (n0 := 0) hn hz hs).ends⟩

/-- A script that changes nothing in place, with calls covered after any calls. -/
def Script.Derives (ok : O → Prop) : Script O K E → Prop
  | .done => True
  | .call op t => (match op with | .cow _ o => ok o | .inp _ _ => False | _ => True) ∧ t.Derives ok
  | .read _ _ t => t.Derives ok
  | .each _ body t => (∀ e, (body e).Derives ok) ∧ t.Derives ok

/-- Such scripts are legal, also where they derive trees from the one they loop over. -/
theorem Script.Derives.legal {good : O → Prop} {ok iok : List O → O → Prop} {L : List O → List E → Prop} {N : Nat → Prop} (hok : ∀ l o, good o → ok l o)
    (hN : ∀ n, N n) (sc : Script O K E) : sc.Derives good → ∀ busy b m, sc.Legal ok iok L N busy b m := by
  induction sc with
  | done => intro _ _ _ _; trivial
  | call op t ih =>
    rintro ⟨h1, h2⟩ busy b m
    refine ⟨hN _, ?_, ?_, ih h2 _ _ _⟩
    · cases op with
      | cow i o => exact fun v _ => hok _ _ h1
      | inp i o => exact h1.elim
      | _ => trivial
    · cases op with
      | inp i o => exact h1.elim
      | _ => trivial
  | read i q t ih => exact fun h busy b m => ih h busy b _
  | each i body t ihb iht =>
    rintro ⟨h1, h2⟩ busy b m
    simp only [Script.Legal]
    split
    · exact iht h2 _ _ _
    · rename_i v _
      intro es _
      refine ⟨?_, fun l _ => iht h2 _ _ _⟩
      have : ∀ es b m, RoundsLegal (fun e => (body e).Unrolls L) (fun e => (body e).Legal ok iok L N (v.1 :: busy)) es b m := by
        intro es
        induction es with
        | nil => exact fun _ _ => trivial
        | cons e es ih => exact fun b m => ⟨ihb e (h1 e) _ _ _, fun l _ => ih _ _⟩
      exact this es b m

end Verif.Pipe
