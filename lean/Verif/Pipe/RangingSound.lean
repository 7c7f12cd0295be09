import Verif.Pipe.Ranging

/-!
# Every step keeps what goroutines with loops rely on
-/

namespace Verif.Pipe
open Verif.Heap Verif.Heap.Prog
variable {D T O R K A B E : Type} [DecidableEq T]

/-- The invariant without channels does not depend on the record. -/
theorem _root_.Verif.Heap.HubInv.relog {I : OImpl D O R} {P : K → List O → A → Prop} {base m : Nat} {s s' : Hub D T O R K A} {bd : Board T O} {bk : T → Book O} (hi : HubInv I P base m s bd bk)
    (h1 : s'.heap = s.heap) (h2 : s'.cur = s.cur) (h3 : s'.holder = s.holder) (h4 : s'.th = s.th) : HubInv I P base m s' bd bk :=
  ⟨by rw [h1]; exact hi.ok, by rw [h1]; exact hi.low, by rw [h1, h2]; exact hi.cur, hi.held, by rw [h3]; exact hi.holder, by rw [h1, h3, h4]; exact hi.gor⟩

theorem _root_.Verif.Heap.HubInv.grow {I : OImpl D O R} {P : K → List O → A → Prop} {base m m' : Nat} {s : Hub D T O R K A} {bd : Board T O} {bk : T → Book O} (hi : HubInv I P base m s bd bk)
    (hm : m ≤ m') : HubInv I P base m' s bd bk :=
  ⟨hi.ok, hi.low, hi.cur.above .rfl' (Nat.le_refl _) hm, hi.held, hi.holder, fun t => (hi.gor t).more hm⟩

theorem plain_one {es : List (PEvent T O K A)} {l : List (REvent T O K A E)} {e : PEvent T O K A} (h : l ++ [.plain e] = l ++ es.map .plain) : es = [e] := by
  have h := List.append_cancel_left h
  cases es with
  | nil => simp at h
  | cons x es =>
    simp only [List.map_cons, List.cons.injEq, REvent.plain.injEq] at h
    obtain ⟨rfl, h⟩ := h
    simpa using h.symm

theorem plain_none {es : List (PEvent T O K A)} {l : List (REvent T O K A E)} (h : l = l ++ es.map .plain) : es = [] := by
  have : es.map (REvent.plain (E := E)) = [] := by
    have := congrArg List.length h
    simp at this
    simpa using this
  simpa using this

/-- A tree held, with its chain in the books. -/
theorem held_get {b : Book O} {held : List (List O)} (h : held = b.vs.map (·.2)) {i : Nat} {v : Nat × List O} (hv : b.vs[i]? = some v) : held[i]? = some v.2 := by
  subst h; simp [hv]

theorem getElem?_snoc {α : Type} {l : List α} {x y : α} {i : Nat} (h : (l ++ [x])[i]? = some y) : l[i]? = some y ∧ i < l.length ∨ i = l.length ∧ y = x := by
  rw [List.getElem?_append] at h
  split at h
  · rename_i hlt; exact .inl ⟨h, hlt⟩
  · rename_i hlt
    have h0 : i - l.length = 0 := by
      rcases Nat.eq_zero_or_pos (i - l.length) with h' | h'
      · exact h'
      · rw [List.getElem?_eq_none (by simp; omega)] at h; cases h
    rw [h0] at h
    simp only [List.getElem?_cons_zero, Option.some.injEq] at h
    exact .inr ⟨by omega, h.symm⟩

/-- One more settled tree. -/
theorem Settled.snoc {I : OImpl D O R} {base m : Nat} {h : Heap D} {sh : List Bool} {rs : List R} {ls : List (List O)} (hs : Settled I base m h sh rs ls) {r : R} {l : List O}
    (x : Bool) (hr : x = true → Shown I base m h r l) : Settled I base m h (sh ++ [x]) (rs ++ [r]) (ls ++ [l]) := by
  refine ⟨by simp [hs.1], by simp [hs.2.1], fun i r' l' h1 h2 h3 => ?_⟩
  rcases getElem?_snoc h1 with ⟨a1, a2⟩ | ⟨a1, a2⟩ <;> rcases getElem?_snoc h2 with ⟨b1, b2⟩ | ⟨b1, b2⟩ <;> rcases getElem?_snoc h3 with ⟨c1, c2⟩ | ⟨c1, c2⟩
  · exact hs.2.2 i r' l' a1 b1 c1
  all_goals first
    | (have := hs.1; have := hs.2.1; omega)
    | (subst b2 c2; exact hr a2.symm)

theorem Settled.drop {I : OImpl D O R} {base m : Nat} {h : Heap D} {sh : List Bool} {rs : List R} {ls : List (List O)} (hs : Settled I base m h sh rs ls) (i : Nat) :
    Settled I base m h (sh.eraseIdx i) (rs.eraseIdx i) (ls.eraseIdx i) := by
  refine ⟨by simp [List.length_eraseIdx, hs.1], by simp [List.length_eraseIdx, hs.2.1], fun j r l h1 h2 h3 => ?_⟩
  simp only [List.getElem?_eraseIdx] at h1 h2 h3
  split at h1
  · rename_i hlt
    rw [if_pos hlt] at h2 h3
    exact hs.2.2 j r l h1 h2 h3
  · rename_i hlt
    rw [if_neg hlt] at h2 h3
    exact hs.2.2 (j + 1) r l h1 h2 h3

/-- Settled trees after a call. -/
theorem Settled.call {I : OImpl D O R} {base m : Nat} {h : Heap D} {sh : List Bool} {rs rs' : List R} {ls : List (List O)} (hs : Settled I base m h sh rs ls) {op : SOp O}
    (hc : Comes2 rs op rs') : Settled I base m h (settled sh op) rs' (afterCall ls op) := by
  cases op with
  | fresh =>
    obtain ⟨r, rfl⟩ := hc
    exact hs.snoc false (by simp)
  | cow i o =>
    simp only [Comes2] at hc
    simp only [settled, afterCall, hs.1]
    split at hc
    · rename_i hlt
      obtain ⟨r, rfl⟩ := hc
      have : i < ls.length := by rw [hs.2.1]; exact hlt
      rw [List.getElem?_eq_getElem this, if_pos hlt]
      exact hs.snoc false (by simp)
    · rename_i hlt
      subst hc
      have : ls.length ≤ i := by rw [hs.2.1]; omega
      rw [List.getElem?_eq_none this, if_neg hlt]
      exact hs
  | inp i o =>
    have hlen : ∀ ls' : List (List O), ls' = afterCall ls (.inp i o) → ls'.length = ls.length ∧ ∀ j, j ≠ i → ls'[j]? = ls[j]? := by
      rintro _ rfl
      simp only [afterCall]
      split
      · exact ⟨rfl, fun _ _ => rfl⟩
      · exact ⟨by simp, fun j hj => by simp [Ne.symm hj]⟩
    obtain ⟨l1, l2⟩ := hlen _ rfl
    have hrs : rs'.length = rs.length ∧ ∀ j, j ≠ i → rs'[j]? = rs[j]? := by
      rcases hc with rfl | ⟨r, rfl⟩
      · exact ⟨rfl, fun _ _ => rfl⟩
      · exact ⟨by simp, fun j hj => by simp [Ne.symm hj]⟩
    refine ⟨by simp [settled, hs.1, hrs.1], by rw [l1, hs.2.1, hrs.1], fun j r l h1 h2 h3 => ?_⟩
    simp only [settled] at h1
    by_cases e : j = i
    · subst e
      simp only [List.getElem?_set] at h1
      split at h1
      · split at h1 <;> simp at h1
      · rename_i hne; exact absurd trivial hne
    · rw [List.getElem?_set] at h1
      rw [if_neg (Ne.symm e)] at h1
      rw [hrs.2 j e] at h2
      rw [l2 j e] at h3
      exact hs.2.2 j r l h1 h2 h3
  | drop i =>
    subst hc
    exact hs.drop i

theorem Settled.all {I : OImpl D O R} {base m : Nat} {h : Heap D} {rs : List R} {ls : List (List O)} (hl : ls.length = rs.length)
    (hs : ∀ (i : Nat) r l, rs[i]? = some r → ls[i]? = some l → Shown I base m h r l) {α : Type} {vs : List α} (hv : vs.length = rs.length) :
    Settled I base m h (vs.map fun _ => true) rs ls :=
  ⟨by simp [hv], hl, fun i r l _ h2 h3 => hs i r l h2 h3⟩

/-- What the holder of the lock and the others know of their roots. -/
theorem RInv.roots {I : OImpl D O R} {Lp : Loop D R B E} {P : K → List O → A → Prop} {L : List O → List E → Prop} {base m : Nat} {s : RHub D T O R K A B E} {rb : RBoard T O E}
    {bk b : T → Book O} {sh : T → List Bool} {qs : T → List (List E)} (hi : RInv I Lp P L base m s rb bk b sh qs) (t : T) {g : RAct O K A E} (hp : (s.th t).phase = .idle g) :
    RootsInv I base m s.heap (decide (s.holder = some t)) (s.th t).roots (bk t) ∧ rb.board.held t = (bk t).vs.map (·.2) ∧ (s.th t).roots.length = (rb.board.held t).length := by
  have hg := hi.1.gor t
  unfold GorInv at hg
  have e : ((s.plain qs).th t).phase = .idle (g.plain (qs t)) := by simp only [RHub.plain, hp]; rfl
  rw [e] at hg
  have hr : RootsInv I base m s.heap (decide (s.holder = some t)) (s.th t).roots (bk t) := hg.2
  refine ⟨hr, hi.1.held t, ?_⟩
  rw [hi.1.held t, List.length_map]
  cases hlk : decide (s.holder = some t) with
  | false => rw [hlk] at hr; simpa [RootsInv] using hr.1
  | true =>
    rw [hlk] at hr
    simp only [RootsInv, if_true] at hr
    obtain ⟨Ts, _, _, h1, h2, _⟩ := hr
    simp only at h1
    simp [h1, h2]

theorem decide_true_iff {p : Prop} [Decidable p] (h : p) : decide p = true := by simp [h]

/-- A step that both descriptions have. -/
theorem ranging_common {I : OImpl D O R} {n base m m' : Nat} (hI : I.Lawful n) (Rd : K → R → Prog D A) (P : K → List O → A → Prop) {Lp : Loop D R B E} {L : List O → List E → Prop}
    (hR : ∀ k h r l F, l.length ≤ n → I.Obj h r l F → wp (fun _ => False) (Rd k r) (fun x h' => h' = h ∧ P k l x) h)
    (hm : m ≤ n) (hmm : m ≤ m') {s : RHub D T O R K A B E} {rb : RBoard T O E} {bk b : T → Book O} {sh : T → List Bool} {qs : T → List (List E)}
    (hi : RInv I Lp P L base m s rb bk b sh qs) (t : T) (hcom : (s.th t).phase.common) (hc : ∀ op c, (s.th t).phase = .idle (.call op c) → m < n ∧ m < m') :
    ∃ base' bk' b' sh' qs' es, (s.step I Rd Lp t).log = s.log ++ es ∧ rb.FitsAll P L es ∧ RInv I Lp P L base' m' (s.step I Rd Lp t) (rb.replay es) bk' b' sh' qs' := by
  obtain ⟨es, hl, hst⟩ := plain_step I Rd Lp s qs t hcom
  have hRL : ∀ i k c, ((s.plain qs).th t).phase = .idle (.read i k c) → ∀ h r l F, l.length ≤ n → I.Obj h r l F →
      wp (fun _ => False) (RdL (E := E) Rd k r) (fun x h' => h' = h ∧ PL P L k l x) h := by
    intro i k c hp h r l F h1 h2
    have hp : (s.th t).phase.plain (qs t) = .idle (.read i k c) := hp
    have hk : ∃ k0, k = .inl k0 := by
      cases e : (s.th t).phase with
      | idle g =>
        rw [e] at hp hcom
        cases g with
        | read i' k' c' => simp only [RPhase.plain, RAct.plain, Phase.idle.injEq, Act.read.injEq] at hp; exact ⟨k', hp.2.1.symm⟩
        | range i' c' => exact hcom.elim
        | next i' c' => exact hcom.elim
        | _ => simp [RPhase.plain, RAct.plain] at hp
      | taking ch p c => rw [e] at hcom; exact hcom.elim
      | _ => rw [e] at hp; simp [RPhase.plain] at hp
    obtain ⟨k0, rfl⟩ := hk
    simp only [RdL, wp_bind, wp_pure]
    exact hR k0 h r l F h1 h2
  have hcL : ∀ op c, ((s.plain qs).th t).phase = .idle (.call op c) → m < n ∧ m < m' := by
    intro op c hp
    have hp : (s.th t).phase.plain (qs t) = .idle (.call op c) := hp
    cases e : (s.th t).phase with
    | idle g =>
      rw [e] at hp hcom
      cases g with
      | call op' c' => exact hc op' c' e
      | range i' c' => exact hcom.elim
      | next i' c' => exact hcom.elim
      | _ => simp [RPhase.plain, RAct.plain] at hp
    | taking ch p c => rw [e] at hcom; exact hcom.elim
    | _ => rw [e] at hp; simp [RPhase.plain] at hp
  obtain ⟨base', bk', es', ⟨hb, hbs⟩, hl', hf', hi'⟩ := hub_step_base (m' := m') hI (RdL (E := E) Rd) (PL P L) (by omega) (by omega) hi.1 t hRL hcL
  rw [hst] at hl'
  have hl' : es' = es.map emb := by
    have : es.map (emb (E := E)) = [] ++ es' := hl'
    simpa using this.symm
  subst hl'
  rw [hst] at hi'
  have hi' := hi'.relog (s' := (s.step I Rd Lp t).plain qs) rfl rfl rfl rfl
  rw [emb_replay] at hi'
  have hf := emb_fitsAll rb es hf'
  have hab := (hub_step_heap (RdL (E := E) Rd) (PL P L) hi.1 t).1
  rw [hst] at hab
  have hab : Above base s.heap (s.step I Rd Lp t).heap := hab
  have hg := hi.2 t
  -- what is left to show: the goroutine itself
  have fin : ∀ b' sh', (∀ u, u ≠ t → ((s.step I Rd Lp t).holder = some u ↔ s.holder = some u)) →
      (∀ u, u ≠ t → (rb.replay (es.map .plain)).board.held u = rb.board.held u) → (rb.replay (es.map .plain)).chans = rb.chans →
      RGorInv I Lp P L base' m' (s.step I Rd Lp t).heap (decide ((s.step I Rd Lp t).holder = some t)) ((s.step I Rd Lp t).th t) ((rb.replay (es.map .plain)).board.held t)
        (rb.chans t) b' sh' (qs t) →
      ∃ base' bk' b' sh' qs' es, (s.step I Rd Lp t).log = s.log ++ es ∧ rb.FitsAll P L es ∧ RInv I Lp P L base' m' (s.step I Rd Lp t) (rb.replay es) bk' b' sh' qs' := by
    intro b' sh' h1 h2 h3 h4
    refine ⟨base', bk', _, _, _, es.map .plain, hl, hf, hi.next t b' sh' (qs t) hab hb (by omega) (fun u hu => rstep_other Rd Lp s hu) h1 h2 (fun u _ => by rw [h3]) (by rw [h3]; exact h4) ?_⟩
    have : (fun u => if u = t then qs t else qs u) = qs := by
      funext u
      by_cases e : u = t
      · subst e; simp
      · simp [e]
    rw [this]; exact hi'
  obtain ⟨g1, g2, g3, g4, g5⟩ := hg.above (m' := m') hab hb (by omega)
  cases e : (s.th t).phase with
  | idle g =>
    rw [e] at g1
    obtain ⟨hroots, hheld, hlen⟩ := hi.roots t e
    have g4' : (s.th t).chans.length = (qs t).length ∧ ∀ (ch : Nat) p es, (s.th t).chans[ch]? = some p → (qs t)[ch]? = some es → ChanInv Lp base' (s.step I Rd Lp t).heap p es := by
      rw [e] at g4; exact g4
    cases g with
    | done =>
      have hs : s.step I Rd Lp t = s := by simp only [RHub.step, e]
      have he : es = [] := plain_none (by rw [hs] at hl; exact hl)
      subst he
      refine fin (b t) (sh t) (fun u _ => by rw [hs]) (fun u _ => rfl) rfl ?_
      rw [hs] at g1 g3 g4 ⊢
      exact ⟨by rw [e]; exact g1, g2, g3, g4, g5⟩
    | load c =>
      have hs : s.step I Rd Lp t = (s.put t ⟨(s.th t).roots ++ [s.cur], .idle c, (s.th t).chans⟩).note (.plain (.load t)) := by simp only [RHub.step, e]
      have he : es = [.load t] := plain_one (by rw [hs] at hl; exact hl)
      subst he
      have hcur := hi'.cur
      rw [hs] at hcur
      have hcur : Shown I base' m' s.heap s.cur rb.board.pub := hcur
      refine fin ⟨(b t).next, (b t).vs ++ [(0, rb.board.pub)]⟩ (sh t ++ [true]) (fun u _ => by rw [hs]; rfl) (fun u hu => by simp [RBoard.replay, RBoard.step, Board.step, Board.setHeld, hu]) rfl ?_
      rw [hs] at g1 g3 g4' ⊢
      simp only [RBoard.replay, RBoard.step, Board.step, Board.setHeld, if_true, List.map_cons, List.map_nil, RHub.note, RHub.put] at g3 g4' ⊢
      refine ⟨g1 rb.board.pub, by simp [g2], fun h => (g3 h).snoc true fun _ => hcur, g4', g5⟩
    | drop i c =>
      have hs : s.step I Rd Lp t = (s.put t ⟨(s.th t).roots.eraseIdx i, .idle c, (s.th t).chans⟩).note (.plain (.drop t i)) := by simp only [RHub.step, e]
      have he : es = [.drop t i] := plain_one (by rw [hs] at hl; exact hl)
      subst he
      refine fin ((b t).step (.drop i)) ((sh t).eraseIdx i) (fun u _ => by rw [hs]; rfl) (fun u hu => by simp [RBoard.replay, RBoard.step, Board.step, Board.setHeld, hu]) rfl ?_
      rw [hs] at g1 g3 g4' ⊢
      simp only [RBoard.replay, RBoard.step, Board.step, Board.setHeld, if_true, List.map_cons, List.map_nil, RHub.note, RHub.put] at g3 g4' ⊢
      refine ⟨g1, by simp [g2, Book.step, map_eraseIdx], fun h => (g3 h).drop i, g4', g5⟩
    | read i k c =>
      cases h0 : (s.th t).roots[i]? with
      | none =>
        have hs : s.step I Rd Lp t = (s.to t (.idle (c none))).note (.plain (.answer t i k none)) := by simp only [RHub.step, e, h0]
        have he : es = [.answer t i k none] := plain_one (by rw [hs] at hl; exact hl)
        subst he
        refine fin (b t) (sh t) (fun u _ => by rw [hs]; rfl) (fun u hu => rfl) rfl ?_
        rw [hs] at g1 g3 g4' ⊢
        simp only [RHub.note, RHub.put, RHub.to, if_true] at g3 g4' ⊢
        have hv : (b t).vs[i]? = none := by
          rw [List.getElem?_eq_none_iff] at h0 ⊢
          rw [hlen, hg.trees, List.length_map] at h0; exact h0
        simp only [PhaseInv, RAct.Legal, hv] at g1
        exact ⟨g1, g2, g3, g4', g5⟩
      | some r =>
        have hs : s.step I Rd Lp t = s.to t (.reading i k (Rd k r) c) := by simp only [RHub.step, e, h0]
        have he : es = [] := plain_none (by rw [hs] at hl; exact hl)
        subst he
        refine fin (b t) (sh t) (fun u _ => by rw [hs]; rfl) (fun u hu => rfl) rfl ?_
        rw [hs] at g1 g3 g4' ⊢
        simp only [RHub.put, RHub.to, if_true] at g3 g4' ⊢
        have hv : ∃ v, (b t).vs[i]? = some v := by
          have := (List.getElem?_eq_some_iff.1 h0).1
          rw [hlen, hg.trees, List.length_map] at this
          exact ⟨_, List.getElem?_eq_getElem this⟩
        obtain ⟨v, hv⟩ := hv
        simp only [PhaseInv, RAct.Legal, hv] at g1
        exact ⟨⟨v, hv, g1⟩, g2, g3, g4', g5⟩
    | lock c =>
      obtain ⟨g11, g12⟩ := g1
      cases h0 : s.holder with
      | some u =>
        have hs : s.step I Rd Lp t = s := by simp only [RHub.step, e, h0]
        have he : es = [] := plain_none (by rw [hs] at hl; exact hl)
        subst he
        refine fin (b t) (sh t) (fun u _ => by rw [hs]) (fun u _ => rfl) rfl ?_
        rw [hs] at g3 g4 ⊢
        exact ⟨by rw [e]; exact ⟨g11, g12⟩, g2, g3, g4, g5⟩
      | none =>
        have hs : s.step I Rd Lp t = { (s.to t (.idle c)).note (.plain (.lock t)) with holder := some t } := by simp only [RHub.step, e, h0]
        have he : es = [.lock t] := plain_one (by rw [hs] at hl; exact hl)
        subst he
        refine fin (b t).flat ((b t).vs.map fun _ => true) (fun u hu => ?_) (fun u hu => rfl) rfl ?_
        · rw [hs, h0]
          have : ¬ t = u := fun h => hu h.symm
          simp [this]
        · rw [hs] at g4' ⊢
          simp only [RHub.note, RHub.put, RHub.to, if_true, decide_true] at g4' ⊢
          refine ⟨g12, ?_, fun _ => ?_, g4', g5⟩
          · show rb.board.held t = _
            rw [hg.trees]; simp [Book.flat]
          · have hr0 := hroots
            rw [g11] at hr0
            simp only [RootsInv, Bool.false_eq_true, if_false] at hr0
            refine Settled.all hlen.symm (fun j r l h1 h2 => ?_) (by rw [hlen, hg.trees, List.length_map])
            have h2 : (rb.board.held t)[j]? = some l := h2
            rw [hheld, List.getElem?_map] at h2
            cases hv : (bk t).vs[j]? with
            | none => rw [hv] at h2; cases h2
            | some v =>
              rw [hv] at h2; cases h2
              exact (hr0.2 j r v h1 hv).above .rfl' hb (by omega)
    | call op c =>
      have hs : s.step I Rd Lp t = s.to t (.calling op (stepP I (s.th t).roots op) c) := by simp only [RHub.step, e]
      have he : es = [] := plain_none (by rw [hs] at hl; exact hl)
      subst he
      refine fin (b t) (sh t) (fun u _ => by rw [hs]; rfl) (fun u hu => rfl) rfl ?_
      rw [hs] at g3 g4' ⊢
      simp only [RHub.put, RHub.to, if_true] at g3 g4' ⊢
      exact ⟨⟨g1.2.2.2, stepP_all I _ op⟩, g2, g3, g4', g5⟩
    | store i c =>
      obtain ⟨g11, g12, g13⟩ := g1
      have hs : s.step I Rd Lp t = { (s.to t (.idle c)).note (.plain (.store t i)) with cur := ((s.th t).roots[i]?).getD s.cur } := by simp only [RHub.step, e]
      have he : es = [.store t i] := plain_one (by rw [hs] at hl; exact hl)
      subst he
      have hbs' : s.heap.next ≤ base' := hbs i (c.plain (qs t)) (by simp only [RHub.plain, e]; rfl)
      refine fin (b t).flat ((b t).vs.map fun _ => true) (fun u _ => by rw [hs]; rfl) (fun u hu => rfl) rfl ?_
      rw [hs] at g4' ⊢
      simp only [RHub.note, RHub.put, RHub.to, if_true] at g4' ⊢
      refine ⟨g13, ?_, fun _ => ?_, g4', g5⟩
      · show rb.board.held t = _
        rw [hg.trees]; simp [Book.flat]
      · have hr0 := hroots
        rw [g11] at hr0
        simp only [RootsInv, if_true] at hr0
        obtain ⟨_, f2, f3⟩ := hr0.flat
        refine Settled.all hlen.symm (fun j r l h1 h2 => ?_) (by rw [hlen, hg.trees, List.length_map])
        have h2 : (rb.board.held t)[j]? = some l := h2
        rw [hheld, List.getElem?_map] at h2
        cases hv : (bk t).vs[j]? with
        | none => rw [hv] at h2; cases h2
        | some v =>
          rw [hv] at h2; cases h2
          exact (f3 j r (0, v.2) h1 (by rw [flat_vs, hv]; rfl)).above .rfl' hbs' (by omega)
    | unlock c =>
      obtain ⟨g11, g12⟩ := g1
      have hh : s.holder = some t := by simpa using g11
      have hs : s.step I Rd Lp t = { (s.to t (.idle c)).note (.plain (.unlock t)) with holder := none } := by simp only [RHub.step, e]
      have he : es = [.unlock t] := plain_one (by rw [hs] at hl; exact hl)
      subst he
      refine fin (b t).flat ((b t).vs.map fun _ => true) (fun u hu => ?_) (fun u hu => rfl) rfl ?_
      · rw [hs, hh]
        have : ¬ t = u := fun h => hu h.symm
        simp [this]
      · rw [hs] at g4' ⊢
        simp only [RHub.note, RHub.put, RHub.to, if_true] at g4' ⊢
        refine ⟨by rw [decide_eq_false (by simp)]; exact g12, ?_, fun h => by simp at h, g4', g5⟩
        show rb.board.held t = _
        rw [hg.trees]; simp [Book.flat]
    | range i c => rw [e] at hcom; exact hcom.elim
    | next ch c => rw [e] at hcom; exact hcom.elim
  | calling op p g =>
    rw [e] at g1
    obtain ⟨g11, g12⟩ := g1
    have g4' : (s.th t).chans.length = (qs t).length ∧ ∀ (ch : Nat) p es, (s.th t).chans[ch]? = some p → (qs t)[ch]? = some es → ChanInv Lp base' (s.step I Rd Lp t).heap p es := by
      rw [e] at g4; exact g4
    have hn : (∀ x, p ≠ .ret x) → ∃ base' bk' b' sh' qs' es, (s.step I Rd Lp t).log = s.log ++ es ∧ rb.FitsAll P L es ∧
        RInv I Lp P L base' m' (s.step I Rd Lp t) (rb.replay es) bk' b' sh' qs' := by
      intro hne
      have hs : s.step I Rd Lp t = match p.step s.heap with
          | none => s
          | some (q, h) => { s.to t (.calling op q g) with heap := h } := by
        cases p with
        | ret x => exact absurd rfl (hne x)
        | _ => simp only [RHub.step, e]; rfl
      cases h0 : p.step s.heap with
      | none =>
        rw [h0] at hs
        have hs : s.step I Rd Lp t = s := hs
        have he : es = [] := plain_none (by rw [hs] at hl; exact hl)
        subst he
        refine fin (b t) (sh t) (fun u _ => by rw [hs]) (fun u _ => rfl) rfl ?_
        rw [hs] at g3 g4 ⊢
        exact ⟨by rw [e]; exact ⟨g11, g12⟩, g2, g3, g4, g5⟩
      | some x =>
        obtain ⟨q, h⟩ := x
        rw [h0] at hs
        have hs : s.step I Rd Lp t = { s.to t (.calling op q g) with heap := h } := hs
        have he : es = [] := plain_none (by rw [hs] at hl; exact hl)
        subst he
        refine fin (b t) (sh t) (fun u _ => by rw [hs]; rfl) (fun u hu => rfl) rfl ?_
        rw [hs] at g3 g4' ⊢
        simp only [RHub.put, RHub.to, if_true] at g3 g4' ⊢
        exact ⟨⟨g11, Prog.all_step g12 h0⟩, g2, g3, g4', g5⟩
    cases p with
    | ret rs =>
      have hs : s.step I Rd Lp t = (s.put t ⟨rs, .idle g, (s.th t).chans⟩).note (.plain (.call t op)) := by simp only [RHub.step, e]
      have he : es = [.call t op] := plain_one (by rw [hs] at hl; exact hl)
      subst he
      refine fin ((b t).step op) (settled (sh t) op) (fun u _ => by rw [hs]; rfl) (fun u hu => by simp [RBoard.replay, RBoard.step, Board.step, Board.setHeld, hu]) rfl ?_
      rw [hs] at g3 g4' ⊢
      simp only [RBoard.replay, RBoard.step, Board.step, Board.setHeld, if_true, List.map_cons, List.map_nil, RHub.note, RHub.put] at g3 g4' ⊢
      refine ⟨g11, by rw [g2, afterCall_eq], fun h => (g3 h).call g12, g4', g5⟩
    | _ => exact hn (by intro x h; cases h)
  | reading i k p c =>
    rw [e] at g1
    obtain ⟨v, hv, g1⟩ := g1
    have g4' : (s.th t).chans.length = (qs t).length ∧ ∀ (ch : Nat) p es, (s.th t).chans[ch]? = some p → (qs t)[ch]? = some es → ChanInv Lp base' (s.step I Rd Lp t).heap p es := by
      rw [e] at g4; exact g4
    have hn : (∀ x, p ≠ .ret x) → ∃ base' bk' b' sh' qs' es, (s.step I Rd Lp t).log = s.log ++ es ∧ rb.FitsAll P L es ∧
        RInv I Lp P L base' m' (s.step I Rd Lp t) (rb.replay es) bk' b' sh' qs' := by
      intro hne
      have hs : s.step I Rd Lp t = match p.step s.heap with
          | none => s
          | some (q, h) => { s.to t (.reading i k q c) with heap := h } := by
        cases p with
        | ret x => exact absurd rfl (hne x)
        | _ => simp only [RHub.step, e]; rfl
      cases h0 : p.step s.heap with
      | none =>
        rw [h0] at hs
        have hs : s.step I Rd Lp t = s := hs
        have he : es = [] := plain_none (by rw [hs] at hl; exact hl)
        subst he
        refine fin (b t) (sh t) (fun u _ => by rw [hs]) (fun u _ => rfl) rfl ?_
        rw [hs] at g3 g4 ⊢
        exact ⟨by rw [e]; exact ⟨v, hv, g1⟩, g2, g3, g4, g5⟩
      | some x =>
        obtain ⟨q, h⟩ := x
        rw [h0] at hs
        have hs : s.step I Rd Lp t = { s.to t (.reading i k q c) with heap := h } := hs
        have he : es = [] := plain_none (by rw [hs] at hl; exact hl)
        subst he
        refine fin (b t) (sh t) (fun u _ => by rw [hs]; rfl) (fun u hu => rfl) rfl ?_
        rw [hs] at g3 g4' ⊢
        simp only [RHub.put, RHub.to, if_true] at g3 g4' ⊢
        exact ⟨⟨v, hv, g1⟩, g2, g3, g4', g5⟩
    cases p with
    | ret a =>
      have hs : s.step I Rd Lp t = (s.to t (.idle (c (some a)))).note (.plain (.answer t i k (some a))) := by simp only [RHub.step, e]
      have he : es = [.answer t i k (some a)] := plain_one (by rw [hs] at hl; exact hl)
      subst he
      have hP : P k v.2 a := by
        have := hf.1
        simp only [List.map_cons, RBoard.Fits, Board.Fits, held_get hg.trees hv] at this
        obtain ⟨x, h1, h2⟩ := this
        cases h1; exact h2
      refine fin (b t) (sh t) (fun u _ => by rw [hs]; rfl) (fun u hu => rfl) rfl ?_
      rw [hs] at g3 g4' ⊢
      simp only [RHub.note, RHub.put, RHub.to, if_true] at g3 g4' ⊢
      exact ⟨g1 a hP, g2, g3, g4', g5⟩
    | _ => exact hn (by intro x h; cases h)
  | taking ch p c => rw [e] at hcom; exact hcom.elim

theorem qs_same (qs : T → List (List E)) (t : T) : (fun u => if u = t then qs t else qs u) = qs := by
  funext u
  by_cases e : u = t
  · subst e; simp
  · simp [e]

/-- Goroutine `t` is described without channels by the same as before. -/
theorem plain_stays {s s' : RHub D T O R K A B E} {qs : T → List (List E)} {t : T} {q' : List (List E)} (h1 : s'.heap = s.heap) (h2 : s'.cur = s.cur) (h3 : s'.holder = s.holder)
    (h4 : ∀ u, u ≠ t → s'.th u = s.th u) (h5 : (s'.th t).roots = (s.th t).roots) (h6 : (s'.th t).phase.plain q' = (s.th t).phase.plain (qs t)) :
    s'.plain (fun u => if u = t then q' else qs u) = s.plain qs := by
  simp only [RHub.plain, h1, h2, h3, Hub.mk.injEq, true_and, and_true]
  funext u
  by_cases e : u = t
  · subst e; simp [h5, h6]
  · simp [e, h4 u e]

theorem plain_keep {I : OImpl D O R} {P : K ⊕ Unit → List O → A ⊕ List E → Prop} {base m : Nat} {s s' : RHub D T O R K A B E} {qs : T → List (List E)} {bd : Board T O} {bk : T → Book O}
    {t : T} {q' : List (List E)} (h : HubInv I P base m (s.plain qs) bd bk) (h1 : s'.heap = s.heap) (h2 : s'.cur = s.cur) (h3 : s'.holder = s.holder)
    (h4 : ∀ u, u ≠ t → s'.th u = s.th u) (h5 : (s'.th t).roots = (s.th t).roots) (h6 : (s'.th t).phase.plain q' = (s.th t).phase.plain (qs t)) :
    HubInv I P base m (s'.plain (fun u => if u = t then q' else qs u)) bd bk := by
  rw [plain_stays h1 h2 h3 h4 h5 h6]
  exact h

/-- A step of a goroutine behind a channel. -/
theorem ChanInv.walk {Lp : Loop D R B E} {base : Nat} {h : Heap D} {p p' : Proc (Cell D) B} {es : List E} (hc : ChanInv Lp base h p es) (st : PStep id h p none p') : ChanInv Lp base h p' es := by
  obtain ⟨hs, pin, bs, n, h1, h2, h3, h4, h5⟩ := hc
  have hk : Holds id pin h := fun a x hx => by
    obtain ⟨a1, c, a2, a3⟩ := h3 a x hx
    exact ⟨Nat.lt_of_lt_of_le a1 h1.next, c, by rw [h1.mem a a1]; exact a2, a3⟩
  obtain ⟨l', n', b1, b2, _⟩ := st.sound hk h4
  have b2 : bs = l' := b2
  subst b2
  exact ⟨hs, pin, bs, n', h1, h2, h3, b1, h5⟩

theorem ChanInv.holds {Lp : Loop D R B E} {base : Nat} {h : Heap D} {p : Proc (Cell D) B} {es : List E} (hc : ChanInv Lp base h p es) :
    ∃ pin bs n, Holds id pin h ∧ p.Good pin bs n ∧ ∀ a, pin a ≠ none → a < base := by
  obtain ⟨hs, pin, bs, n, h1, h2, h3, h4, h5⟩ := hc
  refine ⟨pin, bs, n, fun a x hx => ?_, h4, fun a ha => ?_⟩
  · obtain ⟨a1, c, a2, a3⟩ := h3 a x hx
    exact ⟨Nat.lt_of_lt_of_le a1 h1.next, c, by rw [h1.mem a a1]; exact a2, a3⟩
  · cases hp : pin a with
    | none => exact absurd hp ha
    | some x => exact Nat.lt_of_lt_of_le (h3 a x hp).1 h2

/-- A value received. -/
theorem ChanInv.recv {Lp : Loop D R B E} {base : Nat} {h : Heap D} {p p' : Proc (Cell D) B} {b : B} {es : List E} (hc : ChanInv Lp base h p es) (st : PStep id h p (some b) p') :
    ∃ e es' hs, es = e :: es' ∧ ChanInv Lp base h p' es' ∧ Since hs h ∧ hs.next ≤ base ∧ wp (fun _ => False) (Lp.item b) (fun x h2 => h2 = hs ∧ x = e) hs := by
  obtain ⟨hs, pin, bs, n, h1, h2, h3, h4, h5, h6⟩ := hc
  have hk : Holds id pin h := fun a x hx => by
    obtain ⟨a1, c, a2, a3⟩ := h3 a x hx
    exact ⟨Nat.lt_of_lt_of_le a1 h1.next, c, by rw [h1.mem a a1]; exact a2, a3⟩
  obtain ⟨l', n', b1, b2, _⟩ := st.sound hk h4
  have b2 : bs = b :: l' := b2
  subst b2
  cases es with
  | nil => simp at h5
  | cons e es' =>
    refine ⟨e, es', hs, rfl, ⟨hs, pin, l', n', h1, h2, h3, b1, by simpa using h5, fun j b e x y => h6 (j + 1) b e (by simpa using x) (by simpa using y)⟩, h1, h2, h6 0 b e rfl rfl⟩

/-- One step of the whole. -/
theorem ranging_step {I : OImpl D O R} {n base m m' : Nat} (hI : I.Lawful n) (Rd : K → R → Prog D A) (P : K → List O → A → Prop) {Lp : Loop D R B E} {L : List O → List E → Prop}
    (hR : ∀ k h r l F, l.length ≤ n → I.Obj h r l F → wp (fun _ => False) (Rd k r) (fun x h' => h' = h ∧ P k l x) h) (hL : Lp.Lawful I L n)
    (hm : m ≤ n) (hmm : m ≤ m') {s s' : RHub D T O R K A B E} {rb : RBoard T O E} {bk b : T → Book O} {sh : T → List Bool} {qs : T → List (List E)}
    (hi : RInv I Lp P L base m s rb bk b sh qs) (st : RStep I Rd Lp s s')
    (hc : ∀ t op c, (s.th t).phase = .idle (.call op c) → s' = s.step I Rd Lp t → m < n ∧ m < m') :
    ∃ base' bk' b' sh' qs' es, s'.log = s.log ++ es ∧ rb.FitsAll P L es ∧ RInv I Lp P L base' m' s' (rb.replay es) bk' b' sh' qs' := by
  have stay : RInv I Lp P L base m' s rb bk b sh qs := ⟨hi.1.grow (by omega), fun t => (hi.2 t).above .rfl' (Nat.le_refl _) (by omega)⟩
  have keep : ∃ base' bk' b' sh' qs' es, s.log = s.log ++ es ∧ rb.FitsAll P L es ∧ RInv I Lp P L base' m' s (rb.replay es) bk' b' sh' qs' :=
    ⟨base, bk, b, sh, qs, [], by simp, trivial, stay⟩
  cases st with
  | act t =>
    have hg := stay.2 t
    by_cases hcom : (s.th t).phase.common
    · exact ranging_common hI Rd P hR hm hmm hi t hcom fun op c e => hc t op c e rfl
    · obtain ⟨g1, g2, g3, g4, g5⟩ := hg
      cases e : (s.th t).phase with
      | idle g =>
        rw [e] at g1 g4
        cases g with
        | range i c =>
          obtain ⟨v, hv, hsh, hleg⟩ := g1
          obtain ⟨hroots, hheld, hlen⟩ := hi.roots t e
          have hh : (rb.board.held t)[i]? = some v.2 := held_get g2 hv
          have hlt : i < (rb.board.held t).length := (List.getElem?_eq_some_iff.1 hh).1
          have hr : (s.th t).roots[i]? = some ((s.th t).roots[i]'(by omega)) := List.getElem?_eq_getElem (by omega)
          generalize hr0 : (s.th t).roots[i]'(by omega) = r at hr
          have hshown : Shown I base m s.heap r v.2 := by
            cases hlk : decide (s.holder = some t) with
            | true => exact ((hi.2 t).settled hlk).2.2 i r v.2 (hsh hlk) hr hh
            | false =>
              rw [hlk] at hroots
              simp only [RootsInv, Bool.false_eq_true, if_false] at hroots
              rw [hheld, List.getElem?_map] at hh
              cases hw : (bk t).vs[i]? with
              | none => rw [hw] at hh; cases hh
              | some w =>
                rw [hw] at hh
                simp only [Option.map_some, Option.some.injEq] at hh
                rw [← hh]
                exact hroots.2 i r w hr hw
          obtain ⟨hs, F, f1, f2, f3, f4⟩ := hshown
          obtain ⟨bs, es, k, o1, _, o3, o4, o5⟩ := hL.ok (by omega) f3
          have hstep : s.step I Rd Lp t = (s.put t ⟨(s.th t).roots, .idle c, (s.th t).chans ++ [.mk (Lp.gen r) []]⟩).note (.range t i) := by simp only [RHub.step, e, hr]
          rw [hstep]
          refine ⟨base, bk, _, _, _, [.range t i], rfl, ⟨hlt, trivial⟩,
            hi.next (m' := m') (rb' := rb.replay [.range t i]) (bk' := bk) (s' := (s.put t ⟨(s.th t).roots, .idle c, (s.th t).chans ++ [.mk (Lp.gen r) []]⟩).note (.range t i)) t (b t) (sh t) (qs t ++ [es]) .rfl' (Nat.le_refl _) (by omega)
              (fun u hu => by simp [RHub.note, RHub.put, hu]) (fun u _ => Iff.rfl) (fun u _ => rfl) (fun u hu => by simp [RBoard.replay, RBoard.step, RBoard.setChans, hu]) ?_ ?_⟩
          · simp only [RHub.note, RHub.put, if_true, RBoard.replay, RBoard.step, RBoard.setChans]
            refine ⟨hleg es o3, g2, g3, ⟨by simp [g4.1], fun ch p es' h1 h2 => ?_⟩, ⟨by simp [g5.1], fun ch x es' h1 h2 => ?_⟩⟩
            · have h2 : (qs t ++ [es])[ch]? = some es' := h2
              rcases getElem?_snoc h1 with ⟨a1, a2⟩ | ⟨a1, a2⟩ <;> rcases getElem?_snoc h2 with ⟨c1, c2⟩ | ⟨c1, c2⟩
              · exact g4.2 ch p es' a1 c1
              · have := g4.1; omega
              · have := g4.1; omega
              · subst a2 c2
                exact ⟨hs, pinOf id hs F, bs, k, f1, f2, pinOf_holds fun a ha => hI.lt f3 ha, by rw [Proc.Good]; exact ⟨[], 0, k, by simp [goods], o1, by omega⟩, o4,
                  fun j b e' x y => o5 j b e' x y hs fun _ _ => rfl⟩
            · rcases getElem?_snoc h1 with ⟨a1, a2⟩ | ⟨a1, a2⟩ <;> rcases getElem?_snoc h2 with ⟨c1, c2⟩ | ⟨c1, c2⟩
              · exact g5.2 ch x es' a1 c1
              · have := g5.1; omega
              · have := g5.1; omega
              · subst a2 c2
                simpa [hh] using o3
          · have hgor := stay.1.gor t
            unfold GorInv at hgor
            have ep : ((s.plain qs).th t).phase = .idle ((RAct.range i c).plain (qs t)) := by simp only [RHub.plain, e]; rfl
            rw [ep] at hgor
            obtain ⟨x1, x2⟩ := hgor
            have hbk : (fun u => if u = t then bk t else bk u) = bk := by
              funext u
              by_cases eu : u = t
              · subst eu; simp
              · simp [eu]
            have key := stay.1.next (s' := ((s.put t ⟨(s.th t).roots, .idle c, (s.th t).chans ++ [.mk (Lp.gen r) []]⟩).note (.range t i)).plain fun u => if u = t then qs t ++ [es] else qs u)
              (bd' := rb.board) t (bk t) (Nat.le_refl m') (fun u hu => by simp [RHub.plain, RHub.note, RHub.put, hu]) (Nat.le_refl base) .rfl' (fun u _ => Iff.rfl) (.inl ⟨rfl, rfl⟩) stay.1.ok stay.1.low
              stay.1.cur (fun u => by
                by_cases eu : u = t
                · rw [if_pos eu, eu]; exact stay.1.held t
                · rw [if_neg eu]) stay.1.holder (by
                simp only [RHub.plain, RHub.note, RHub.put, if_true, RPhase.plain, GorInv]
                refine ⟨?_, x2⟩
                simp only [RAct.plain, Act.Legal] at x1
                rw [hheld, List.getElem?_map] at hh
                cases hw : (bk t).vs[i]? with
                | none => rw [hw] at hh; cases hh
                | some w =>
                  rw [hw] at hh
                  simp only [Option.map_some, Option.some.injEq] at hh
                  rw [hw] at x1
                  exact x1 (.inr es) (by rw [hh]; exact o3))
            rw [hbk] at key
            exact key
        | next ch c =>
          have hstep : s.step I Rd Lp t = s := by simp only [RHub.step, e]
          rw [hstep]; exact keep
        | _ => rw [e] at hcom; exact absurd trivial hcom
      | calling op p g => rw [e] at hcom; exact absurd trivial hcom
      | reading i k p c => rw [e] at hcom; exact absurd trivial hcom
      | taking ch p c =>
        rw [e] at g1
        obtain ⟨v, es, hs, q1, q2, q3, q4, q5⟩ := g1
        have hbe : (s.th t).phase.behind (qs t) = (qs t).set ch es := by rw [e]; simp [RPhase.behind, q1]
        rw [hbe] at g4
        rcases read_next q5 with ⟨x, rfl, rfl⟩ | ⟨a, kk, c0, rfl, r1, r2⟩
        · have hstep : s.step I Rd Lp t = (s.to t (.idle (c (some x)))).note (.got t ch (some x)) := by simp only [RHub.step, e]
          rw [hstep]
          have hx : ∃ y, (rb.chans t)[ch]? = some y := by
            have := (List.getElem?_eq_some_iff.1 q1).1
            exact ⟨_, List.getElem?_eq_getElem (by rw [g5.1]; exact this)⟩
          obtain ⟨y, hy⟩ := hx
          have hLy := g5.2 ch y _ hy q1
          refine ⟨base, bk, _, _, _, [.got t ch (some x)], rfl, ⟨⟨y.1, y.2, es, hy, by simpa using hLy, by simp⟩, trivial⟩,
            hi.next (m' := m') (s' := (s.to t (.idle (c (some x)))).note (.got t ch (some x))) t (b t) (sh t) ((qs t).set ch es) .rfl' (Nat.le_refl _) (by omega)
              (fun u hu => by simp [RHub.note, RHub.put, RHub.to, hu]) (fun u _ => Iff.rfl) (fun u _ => rfl) (fun u hu => by simp [RBoard.replay, RBoard.step, RBoard.setChans, hu]) ?_ ?_⟩
          · simp only [RHub.note, RHub.put, RHub.to, if_true, RBoard.replay, RBoard.step, RBoard.setChans, hy]
            refine ⟨q2, g2, g3, g4.imp (by simp) fun h => h, ⟨by simp [g5.1], fun ch' x' es' h1 h2 => ?_⟩⟩
            by_cases ec : ch' = ch
            · subst ec
              have e1 := (List.getElem?_eq_some_iff.1 hy).1
              have e2 := (List.getElem?_eq_some_iff.1 q1).1
              rw [List.getElem?_set_self e1] at h1
              rw [List.getElem?_set_self e2] at h2
              cases h1; cases h2
              simpa using hLy
            · rw [List.getElem?_set_ne (Ne.symm ec)] at h1 h2
              exact g5.2 ch' x' es' h1 h2
          · refine plain_keep (s := s) stay.1 rfl rfl rfl (fun u hu => by simp [RHub.note, RHub.put, RHub.to, hu]) (by simp [RHub.note, RHub.put, RHub.to]) ?_
            simp only [RHub.note, RHub.put, RHub.to, if_true, e, RPhase.plain, RAct.plain, q1, List.head?_cons, List.tail_cons]
        · have em : s.heap.mem a = some c0 := by rw [q3.mem a (q3.ok.lt r1), r1]
          have hstep : s.step I Rd Lp t = s.to t (.taking ch (kk c0) c) := by simp only [RHub.step, e, Prog.step, em]; rfl
          rw [hstep]
          refine ⟨base, bk, _, _, _, [], by simp [RHub.to, RHub.put], trivial,
            hi.next (m' := m') (s' := s.to t (.taking ch (kk c0) c)) t (b t) (sh t) (qs t) .rfl' (Nat.le_refl _) (by omega)
              (fun u hu => by simp [RHub.put, RHub.to, hu]) (fun u _ => Iff.rfl) (fun u _ => rfl) (fun u hu => rfl) ?_ ?_⟩
          · simp only [RHub.put, RHub.to, if_true]
            refine ⟨⟨v, es, hs, q1, q2, q3, q4, r2⟩, g2, g3, ?_, g5⟩
            have : (RPhase.taking ch (kk c0) c : RPhase D O R K A E).behind (qs t) = (qs t).set ch es := by simp [RPhase.behind, q1]
            rw [this]; exact g4
          · refine plain_keep (s := s) stay.1 rfl rfl rfl (fun u hu => by simp [RHub.put, RHub.to, hu]) (by simp [RHub.put, RHub.to]) ?_
            simp only [RHub.put, RHub.to, if_true, e, RPhase.plain]
  | @walk t ch p p' hp st =>
    obtain ⟨g1, g2, g3, g4, g5⟩ := stay.2 t
    refine ⟨base, bk, _, _, _, [], by simp [RHub.put], trivial,
      hi.next (m' := m') (s' := s.put t { s.th t with chans := (s.th t).chans.set ch p' }) t (b t) (sh t) (qs t) .rfl' (Nat.le_refl _) (by omega)
        (fun u hu => by simp [RHub.put, hu]) (fun u _ => Iff.rfl) (fun u _ => rfl) (fun u hu => rfl) ?_ ?_⟩
    · simp only [RHub.put, if_true]
      refine ⟨g1, g2, g3, ⟨by simp [g4.1], fun ch' q es h1 h2 => ?_⟩, g5⟩
      by_cases ec : ch' = ch
      · subst ec
        rw [List.getElem?_set_self (List.getElem?_eq_some_iff.1 hp).1] at h1
        cases h1
        exact (g4.2 ch' p es hp h2).walk st
      · rw [List.getElem?_set_ne (Ne.symm ec)] at h1
        exact g4.2 ch' q es h1 h2
    · refine plain_keep (s := s) stay.1 rfl rfl rfl (fun u hu => by simp [RHub.put, hu]) (by simp [RHub.put]) ?_
      simp only [RHub.put, if_true]
  | @recv t ch c p p' bv e hp st =>
    obtain ⟨g1, g2, g3, g4, g5⟩ := stay.2 t
    rw [e] at g1 g4
    obtain ⟨es0, q1, q2⟩ := g1
    obtain ⟨v, es, hs, rfl, c1, c2, c3, c4⟩ := (g4.2 ch p es0 hp q1).recv st
    refine ⟨base, bk, _, _, _, [], by simp [RHub.put], trivial,
      hi.next (m' := m') (s' := s.put t ⟨(s.th t).roots, .taking ch (Lp.item bv) c, (s.th t).chans.set ch p'⟩) t (b t) (sh t) (qs t) .rfl' (Nat.le_refl _) (by omega)
        (fun u hu => by simp [RHub.put, hu]) (fun u _ => Iff.rfl) (fun u _ => rfl) (fun u hu => rfl) ?_ ?_⟩
    · simp only [RHub.put, if_true]
      have hbe : (RPhase.taking ch (Lp.item bv) c : RPhase D O R K A E).behind (qs t) = (qs t).set ch es := by simp [RPhase.behind, q1]
      refine ⟨⟨v, es, hs, q1, q2, c2, c3, c4⟩, g2, g3, ⟨by simp [g4.1], fun ch' q es' h1 h2 => ?_⟩, g5⟩
      rw [hbe] at h2
      by_cases ec : ch' = ch
      · subst ec
        rw [List.getElem?_set_self (List.getElem?_eq_some_iff.1 hp).1] at h1
        rw [List.getElem?_set_self (List.getElem?_eq_some_iff.1 q1).1] at h2
        cases h1; cases h2
        exact c1
      · rw [List.getElem?_set_ne (Ne.symm ec)] at h1 h2
        exact g4.2 ch' q es' h1 h2
    · refine plain_keep (s := s) stay.1 rfl rfl rfl (fun u hu => by simp [RHub.put, hu]) (by simp [RHub.put]) ?_
      simp only [RHub.put, if_true, e, RPhase.plain]
  | @closed t ch c ks e hp =>
    obtain ⟨g1, g2, g3, g4, g5⟩ := stay.2 t
    rw [e] at g1 g4
    obtain ⟨es0, q1, q2⟩ := g1
    have h0 : es0 = [] := by
      obtain ⟨hs, pin, bs, k, _, _, _, d4, d5, _⟩ := g4.2 ch _ es0 hp q1
      obtain ⟨rfl, _⟩ := good_done d4
      exact List.eq_nil_of_length_eq_zero (by simpa using d5.symm)
    subst h0
    have hsame : (qs t).set ch [] = qs t := set_same q1
    simp only [List.tail_nil, List.head?_nil, hsame] at q2
    have hx : ∃ y, (rb.chans t)[ch]? = some y := by
      have := (List.getElem?_eq_some_iff.1 q1).1
      exact ⟨_, List.getElem?_eq_getElem (by rw [g5.1]; exact this)⟩
    obtain ⟨y, hy⟩ := hx
    have hLy := g5.2 ch y _ hy q1
    refine ⟨base, bk, _, _, _, [.got t ch none], rfl, ⟨⟨y.1, y.2, [], hy, by simpa using hLy, fun _ => rfl⟩, trivial⟩,
      hi.next (m' := m') (s' := (s.to t (.idle (c none))).note (.got t ch none)) t (b t) (sh t) (qs t) .rfl' (Nat.le_refl _) (by omega)
        (fun u hu => by simp [RHub.note, RHub.put, RHub.to, hu]) (fun u _ => Iff.rfl) (fun u _ => rfl) (fun u hu => by simp [RBoard.replay, RBoard.step, RBoard.setChans, hu]) ?_ ?_⟩
    · have hsy : (rb.chans t).set ch (y.1, y.2 ++ []) = rb.chans t := by
        rw [List.append_nil]; exact set_same hy
      simp only [RHub.note, RHub.put, RHub.to, if_true, RBoard.replay, RBoard.step, RBoard.setChans, hy, Option.toList_none, hsy]
      exact ⟨q2, g2, g3, g4, g5⟩
    · refine plain_keep (s := s) stay.1 rfl rfl rfl (fun u hu => by simp [RHub.note, RHub.put, RHub.to, hu]) (by simp [RHub.note, RHub.put, RHub.to]) ?_
      simp only [RHub.note, RHub.put, RHub.to, if_true, e, RPhase.plain, RAct.plain, q1, List.head?_nil, List.tail_nil, hsame]

end Verif.Pipe
