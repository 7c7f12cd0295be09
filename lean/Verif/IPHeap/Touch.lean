import Verif.Heap.Touch
import Verif.IPHeap.UHistory

/-!
# What UpdateDescendants leaves of trees that share nodes with the updated one

Only the values of the user in nodes of the family of the network are written.
-/

namespace Verif.IPHeap
open Verif Verif.Heap Verif.Heap.Prog Verif.Heap.ATree Verif.Num Verif.NumHeap Verif.IP

variable {V σ : Type} {w : Nat} {W : Type}

/-! ## Programs -/

/-- Two cells of numtree nodes that differ at most in the values, in the relation `R`. -/
def SameN (R : W → W → Prop) (c c' : Cell (ND w W)) : Prop :=
  c'.c0 = c.c0 ∧ c'.c1 = c.c1 ∧ c'.d.key = c.d.key ∧ c'.d.bits = c.d.bits ∧ c'.d.leaf = c.d.leaf ∧ R c.d.value c'.d.value

/-- Values in `Node64` before and after. -/
def SameHV : HV V → HV V → Prop
  | .user _, .user _ => True
  | .sub p, .sub q => q = p
  | _, _ => False

theorem sameHV_refl (v : HV V) : SameHV v v := by cases v <;> simp [SameHV]
theorem sameHV_trans (a b c : HV V) (h1 : SameHV a b) (h2 : SameHV b c) : SameHV a c := by
  cases a <;> cases b <;> cases c <;> simp_all [SameHV]

section
variable {R : W → W → Prop}

theorem touch_load {S : Cell (ND w W) → Cell (ND w W) → Prop} {β : Type} (n : Ptr) {k : Cell (ND w W) → Prog (ND w W) β} {h : Heap (ND w W)}
    (hk : ∀ a c, n = some a → h.mem a = some c → (k c).Touch S h) : (load n >>= k).Touch S h := by
  cases n with
  | none => trivial
  | some a => exact fun c hc => hk a c rfl hc

theorem touch_ifNotNil {S : Cell (ND w W) → Cell (ND w W) → Prop} {β : Type} (n : Ptr) (x : β) {k : Prog (ND w W) β} {h : Heap (ND w W)}
    (hk : k.Touch S h) : (ifNotNil n x k).Touch S h := by
  unfold ifNotNil; split
  · exact hk
  · trivial

theorem walkP_touch {S : Cell (ND w W) → Cell (ND w W) → Prop} {visit : Ptr → σ → Prog (ND w W) σ} (hv : ∀ n s h, (visit n s).Touch S h)
    (f : Nat) (n : Ptr) (s : σ) (h : Heap (ND w W)) : (walkP visit f n s).Touch S h := by
  induction f generalizing n s h with
  | zero => trivial
  | succ f ih =>
    unfold walkP
    refine touch_load n fun a c _ _ => ?_
    have tail : ∀ s h, (ifNotNil c.c0 s (walkP visit f c.c0 s) >>= fun s => ifNotNil c.c1 s (walkP visit f c.c1 s)).Touch S h :=
      fun s h => touch_bind (touch_ifNotNil _ _ (ih _ _ _)) fun s h'' _ => touch_ifNotNil _ _ (ih _ _ _)
    dsimp only
    split
    · exact touch_bind (hv _ _ _) fun s h' _ => tail s h'
    · exact tail s h

theorem descP_touch {S : Cell (ND w W) → Cell (ND w W) → Prop} {visit : Ptr → σ → Prog (ND w W) σ} (hv : ∀ n s h, (visit n s).Touch S h)
    (f : Nat) (n : Ptr) (s : σ) (h : Heap (ND w W)) : (descP visit f n s).Touch S h := by
  unfold descP
  exact touch_load n fun a c _ _ => touch_bind (touch_ifNotNil _ _ (walkP_touch hv _ _ _ _)) fun s h'' _ => touch_ifNotNil _ _ (walkP_touch hv _ _ _ _)

theorem FindNodeP_readOnly [KeySize w] (f : Nat) (n : Ptr) (key : BitVec w) (bits : Int) : (FindNodeP f n key bits : Prog (ND w W) Ptr).ReadOnly := by
  unfold FindNodeP
  split
  · trivial
  · refine ReadOnly.bind (exactMatchP_readOnly _ _ _ _) fun r => ?_
    split <;> trivial
end

theorem visit4_touch (cb : σ → IPNet → V → (V × Bool) × σ) (n : Ptr) (s : σ) (h : Heap (ND 32 V)) : (visit4 cb n s).Touch (SameN fun _ _ => True) h := by
  unfold visit4
  refine touch_load n fun a c ha hc => ?_
  subst ha
  dsimp only
  split
  · refine touch_bind (fun c' hc' => ⟨⟨c', hc', ?_⟩, trivial⟩) fun _ _ _ => trivial
    exact ⟨rfl, rfl, rfl, rfl, rfl, trivial⟩
  · trivial

theorem updateNode64P_touch (cb : σ → IPNet → V → (V × Bool) × σ) (key : ND 64 (HV V) → IPNet) (n : Ptr) (s : σ) (h : Heap (ND 64 (HV V))) :
    (updateNode64P cb key n s).Touch (SameN SameHV) h := by
  unfold updateNode64P
  refine touch_load n fun a c ha hc => ?_
  subst ha
  split
  · trivial
  · rename_i v hv
    dsimp only
    split
    · refine touch_bind (fun c' hc' => ⟨⟨c', hc', ?_⟩, trivial⟩) fun _ _ _ => trivial
      rw [hc] at hc'; cases hc'
      exact ⟨rfl, rfl, rfl, rfl, rfl, by rw [hv]; trivial⟩
    · trivial

theorem visit6_touch (cb : σ → IPNet → V → (V × Bool) × σ) (f : Nat) (n : Ptr) (s : σ) (h : Heap (ND 64 (HV V))) : (visit6 cb f n s).Touch (SameN SameHV) h := by
  unfold visit6
  refine touch_load n fun a c ha hc => ?_
  split
  · exact touch_ifNotNil _ _ (walkP_touch (updateNode64P_touch cb _) _ _ _ _)
  · exact updateNode64P_touch cb _ _ _ _

theorem target6P_touch (cb : σ → IPNet → V → (V × Bool) × σ) (f : Nat) (k : Pair64) (n : Ptr) (s : σ) (h : Heap (ND 64 (HV V))) :
    (target6P cb f k n s).Touch (SameN SameHV) h := by
  unfold target6P
  refine touch_load n fun a c ha hc => ?_
  split
  · refine touch_load _ fun a c ha hc => ?_
    have tail : ∀ (t : Ptr) h, (if t = none then pure s else descP (updateNode64P cb (key6s k.msKey)) f t s).Touch (SameN SameHV) h := by
      intro t h
      split
      · trivial
      · exact descP_touch (updateNode64P_touch cb _) _ _ _ _
    dsimp only
    split
    · exact tail _ h
    · exact touch_bind (touch_readOnly (FindNodeP_readOnly _ _ _ _) _) fun t h' _ => tail t h'
  · exact descP_touch (visit6_touch cb f) _ _ _ _

/-- Cells before and after an update with a network of family `g`. -/
def SameC (g : Fam) (c c' : Cell (IPD V)) : Prop :=
  c' = c ∨ (g = .v4 ∧ ∃ d d' : Cell (ND 32 V), c = d.map .n32 ∧ c' = d'.map .n32 ∧ SameN (fun _ _ => True) d d') ∨
  (g = .v6 ∧ ∃ d d' : Cell (ND 64 (HV V)), c = d.map .n64 ∧ c' = d'.map .n64 ∧ SameN SameHV d d')

theorem SameN.trans {R : W → W → Prop} (hR : ∀ a b c, R a b → R b c → R a c) {a b c : Cell (ND w W)} (h1 : SameN R a b) (h2 : SameN R b c) : SameN R a c := by
  obtain ⟨a1, a2, a3, a4, a5, a6⟩ := h1
  obtain ⟨b1, b2, b3, b4, b5, b6⟩ := h2
  exact ⟨b1.trans a1, b2.trans a2, b3.trans a3, b4.trans a4, b5.trans a5, hR _ _ _ a6 b6⟩

theorem map32_inj {d d' : Cell (ND 32 V)} (h : d.map IPD.n32 = d'.map IPD.n32) : d = d' := by
  cases d; cases d'; simp_all [Cell.map]
theorem map64_inj {d d' : Cell (ND 64 (HV V))} (h : d.map IPD.n64 = d'.map IPD.n64) : d = d' := by
  cases d; cases d'; simp_all [Cell.map]

theorem sameC_trans (g : Fam) (a b c : Cell (IPD V)) (h1 : SameC g a b) (h2 : SameC g b c) : SameC g a c := by
  rcases h1 with rfl | ⟨rfl, d1, d2, rfl, rfl, h1⟩ | ⟨rfl, d1, d2, rfl, rfl, h1⟩
  · exact h2
  · rcases h2 with rfl | ⟨_, d3, d4, e, rfl, h2⟩ | ⟨e, _⟩
    · exact .inr (.inl ⟨rfl, d1, d2, rfl, rfl, h1⟩)
    · obtain rfl := map32_inj e
      exact .inr (.inl ⟨rfl, d1, d4, rfl, rfl, h1.trans (fun _ _ _ _ _ => trivial) h2⟩)
    · cases e
  · rcases h2 with rfl | ⟨e, _⟩ | ⟨_, d3, d4, e, rfl, h2⟩
    · exact .inr (.inr ⟨rfl, d1, d2, rfl, rfl, h1⟩)
    · cases e
    · obtain rfl := map64_inj e
      exact .inr (.inr ⟨rfl, d1, d4, rfl, rfl, h1.trans sameHV_trans h2⟩)

theorem UpdateDescendantsP_touch (f : Nat) (cb : σ → IPNet → V → (V × Bool) × σ) (r : Ptr) {n : IPNet} {g : Fam} {p : List Bool} (hn : IsNet n g p) (s : σ)
    (h : Heap (IPD V)) : (UpdateDescendantsP f cb r (some n) s).Touch (SameC g) h := by
  cases g with
  | v4 =>
    obtain ⟨k, b, h1, _⟩ := v4Key_of_isNet hn
    simp only [UpdateDescendantsP, h1]
    refine touch_bind (touch_readOnly (rootsP_readOnly r) h) fun x h' _ => ?_
    refine touch_lift k32 (S := SameN fun _ _ => True) (fun c c' hc => .inr (.inl ⟨rfl, c, c', rfl, rfl, hc⟩)) ?_
    refine touch_bind (touch_readOnly (FindNodeP_readOnly _ _ _ _) _) fun x h' _ => ?_
    split
    · trivial
    · exact descP_touch (visit4_touch cb) _ _ _ _
  | v6 =>
    obtain ⟨k, h1, _⟩ := v6Pair_of_isNet hn
    simp only [UpdateDescendantsP, v4Key_of_v6 hn, h1]
    refine touch_bind (touch_readOnly (rootsP_readOnly r) h) fun x h' _ => ?_
    refine touch_lift k64 (S := SameN SameHV) (fun c c' hc => .inr (.inr ⟨rfl, c, c', rfl, rfl, hc⟩)) ?_
    refine touch_bind (touch_readOnly (FindNodeP_readOnly _ _ _ _) _) fun x h' _ => ?_
    split
    · trivial
    · exact target6P_touch cb _ _ _ _ _

end Verif.IPHeap
