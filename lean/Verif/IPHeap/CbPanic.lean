import Verif.Heap.Follow
import Verif.IPHeap.UHistory

/-!
# `UpdateDescendants` with a callback that may panic

The programs are those of `Verif/IPHeap/UpdateModel.lean`, except that the callback gives `none` where it panics.  (The goroutines of `Enumerate` are left waiting to
send then; see C56.)
-/

namespace Verif.IPHeap
open Verif Verif.Heap Verif.Heap.Prog Verif.Num Verif.NumHeap Verif.IP

variable {V σ : Type}

/-- iptree/iptree.go:130-136, body of the loop over IPv4 nodes. -/
def visit4X (cb : σ → IPNet → V → Option ((V × Bool) × σ)) (n : Ptr) (s : σ) : Prog (ND 32 V) σ := do
  let nc ← load n
  match cb s (key4 nc.d) nc.d.value with
  | none => .stop .panic
  | some r =>
    if r.1.2 then
      upd n (fun c => { c with d := { c.d with value := r.1.1 } })
      pure r.2
    else pure r.2

/-- iptree/iptree.go:96-116 `updateNode64`. -/
def updateNode64X (cb : σ → IPNet → V → Option ((V × Bool) × σ)) (key : ND 64 (HV V) → IPNet) (n : Ptr) (s : σ) : Prog (ND 64 (HV V)) σ := do
  let nc ← load n
  match nc.d.value with
  | .sub _ => .stop .panic
  | .user v =>
    match cb s (key nc.d) v with
    | none => .stop .panic
    | some r =>
      if r.1.2 then
        upd n (fun c => { c with d := { c.d with value := .user r.1.1 } })
        pure r.2
      else pure r.2

/-- iptree/iptree.go:172-181, body of the loop over `root64`. -/
def visit6X (cb : σ → IPNet → V → Option ((V × Bool) × σ)) (f : Nat) (n : Ptr) (s : σ) : Prog (ND 64 (HV V)) σ := do
  let nc ← load n
  match nc.d.value with
  | .sub p => ifNotNil p s (walkP (updateNode64X cb (key6s nc.d.key)) f p s)
  | .user _ => updateNode64X cb key6 n s

/-- iptree/iptree.go:145-181, with the target found in `root64`. -/
def target6X (cb : σ → IPNet → V → Option ((V × Bool) × σ)) (f : Nat) (k : Pair64) (target : Ptr) (s : σ) : Prog (ND 64 (HV V)) σ := do
  let c ← load target
  match c.d.value with
  | .sub s2 => do
    let sc ← load s2
    let target ← if sc.d.key = k.lsKey ∧ (sc.d.bits : Int) = k.lsBits then pure s2 else FindNodeP f s2 k.lsKey k.lsBits
    if target = none then pure s else descP (updateNode64X cb (key6s k.msKey)) f target s
  | .user _ => descP (visit6X cb f) f target s

/-- iptree/iptree.go:119-183 `UpdateDescendants`. -/
def UpdateDescendantsX (f : Nat) (cb : σ → IPNet → V → Option ((V × Bool) × σ)) (t : Ptr) (n : Option IPNet) (s : σ) : Prog (IPD V) σ :=
  match n with
  | none => .stop .panic
  | some n =>
    match v4Key n with
    | some (key, bits) => do
      let r ← rootsP t
      on32 (do
        let target ← FindNodeP f r.1 key bits
        if target = none then pure s else descP (visit4X cb) f target s)
    | none =>
      match v6Pair n with
      | none => pure s
      | some k => do
        let r ← rootsP t
        on64 (do
          let target ← FindNodeP f r.2 k.msKey k.msBits
          if target = none then pure s else target6X cb f k target s)

/-! ## It is like a callback that declines from there on -/

/-- `q` answers like `cb` until `cb` panics, and declines from then on; its state tells (`dead`). -/
structure Quiets (dead : σ → Prop) (q : σ → IPNet → V → (V × Bool) × σ) (cb : σ → IPNet → V → Option ((V × Bool) × σ)) : Prop where
  live : ∀ s k v r, ¬ dead s → cb s k v = some r → q s k v = r ∧ ¬ dead r.2
  ends : ∀ s k v, ¬ dead s → cb s k v = none → (q s k v).1.2 = false ∧ dead (q s k v).2
  rest : ∀ s k v, dead s → (q s k v).1.2 = false ∧ dead (q s k v).2

variable {dead : σ → Prop} {w : Nat} {W : Type}

theorem walk_idle {visit : Ptr → σ → Prog (ND w W) σ} (hv : ∀ n s, dead s → Idle dead (visit n s)) (f : Nat) (n : Ptr) {s : σ} (hs : dead s) :
    Idle dead (walkP visit f n s) := by
  induction f generalizing n s with
  | zero => exact .stop
  | succ f ih =>
    refine .load n fun nc => ?_
    have two : ∀ (c : Ptr) s, dead s → Idle dead (ifNotNil c s (walkP visit f c s)) := by
      intro c s hs; unfold ifNotNil; split
      · exact ih _ hs
      · exact .ret hs
    have tail : ∀ s, dead s → Idle dead (do
        let s ← ifNotNil nc.c0 s (walkP visit f nc.c0 s)
        ifNotNil nc.c1 s (walkP visit f nc.c1 s)) := fun s hs => Idle.then (two _ _ hs) fun s hs => two _ _ hs
    simp only
    split
    · exact Idle.then (hv n s hs) tail
    · exact tail s hs

theorem walk_follows {visit visitX : Ptr → σ → Prog (ND w W) σ} (hd : ∀ n s, dead s → Idle dead (visit n s)) (hv : ∀ n s, ¬ dead s → BreaksOff dead (visit n s) (visitX n s))
    (f : Nat) (n : Ptr) {s : σ} (hs : ¬ dead s) : BreaksOff dead (walkP visit f n s) (walkP visitX f n s) := by
  induction f generalizing n s with
  | zero => exact .stop
  | succ f ih =>
    refine .after _ fun nc => ?_
    have two : ∀ (c : Ptr) s, ¬ dead s → BreaksOff dead (ifNotNil c s (walkP visit f c s)) (ifNotNil c s (walkP visitX f c s)) := by
      intro c s hs; unfold ifNotNil; split
      · exact ih _ hs
      · exact .ret hs
    have two' : ∀ (c : Ptr) s, dead s → Idle dead (ifNotNil c s (walkP visit f c s)) := by
      intro c s hs; unfold ifNotNil; split
      · exact walk_idle hd f c hs
      · exact .ret hs
    have tail : ∀ s, ¬ dead s → BreaksOff dead (do
        let s ← ifNotNil nc.c0 s (walkP visit f nc.c0 s)
        ifNotNil nc.c1 s (walkP visit f nc.c1 s)) (do
        let s ← ifNotNil nc.c0 s (walkP visitX f nc.c0 s)
        ifNotNil nc.c1 s (walkP visitX f nc.c1 s)) := fun s hs => BreaksOff.then (two _ _ hs) (fun s hs => two _ _ hs) fun s hs => two' _ _ hs
    simp only
    split
    · exact BreaksOff.then (hv n s hs) tail fun s hs => Idle.then (two' _ _ hs) fun s hs => two' _ _ hs
    · exact tail s hs

theorem desc_follows {visit visitX : Ptr → σ → Prog (ND w W) σ} (hd : ∀ n s, dead s → Idle dead (visit n s)) (hv : ∀ n s, ¬ dead s → BreaksOff dead (visit n s) (visitX n s))
    (f : Nat) (n : Ptr) {s : σ} (hs : ¬ dead s) : BreaksOff dead (descP visit f n s) (descP visitX f n s) := by
  refine .after _ fun nc => ?_
  have two : ∀ (c : Ptr) s, ¬ dead s → BreaksOff dead (ifNotNil c s (walkP visit f c s)) (ifNotNil c s (walkP visitX f c s)) := by
    intro c s hs; unfold ifNotNil; split
    · exact walk_follows hd hv f c hs
    · exact .ret hs
  refine BreaksOff.then (two _ _ hs) (fun s hs => two _ _ hs) fun s hs => ?_
  unfold ifNotNil; split
  · exact walk_idle hd f _ hs
  · exact .ret hs

variable {q : σ → IPNet → V → (V × Bool) × σ} {cb : σ → IPNet → V → Option ((V × Bool) × σ)}

theorem visit4_idle (hq : Quiets dead q cb) (n : Ptr) (s : σ) (hs : dead s) : Idle dead (visit4 q n s) := by
  refine .load n fun nc => ?_
  obtain ⟨h1, h2⟩ := hq.rest s (key4 nc.d) nc.d.value hs
  simp only [h1]
  exact .ret h2

theorem visit4_follows (hq : Quiets dead q cb) (n : Ptr) (s : σ) (hs : ¬ dead s) : BreaksOff dead (visit4 q n s) (visit4X cb n s) := by
  refine .after _ fun nc => ?_
  cases e : cb s (key4 nc.d) nc.d.value with
  | none =>
    obtain ⟨h1, h2⟩ := hq.ends _ _ _ hs e
    simp only [h1]
    exact .panic (.ret h2)
  | some r =>
    obtain ⟨rfl, h2⟩ := hq.live _ _ _ _ hs e
    simp only
    split
    · exact .after _ fun _ => .ret h2
    · exact .ret h2

theorem updateNode64_idle (hq : Quiets dead q cb) (key : ND 64 (HV V) → IPNet) (n : Ptr) (s : σ) (hs : dead s) : Idle dead (updateNode64P q key n s) := by
  refine .load n fun nc => ?_
  cases nc.d.value with
  | sub _ => exact .stop
  | user v =>
    obtain ⟨h1, h2⟩ := hq.rest s (key nc.d) v hs
    simp only [h1]
    exact .ret h2

theorem updateNode64_follows (hq : Quiets dead q cb) (key : ND 64 (HV V) → IPNet) (n : Ptr) (s : σ) (hs : ¬ dead s) :
    BreaksOff dead (updateNode64P q key n s) (updateNode64X cb key n s) := by
  refine .after _ fun nc => ?_
  cases nc.d.value with
  | sub _ => exact .stop
  | user v =>
    simp only
    cases e : cb s (key nc.d) v with
    | none =>
      obtain ⟨h1, h2⟩ := hq.ends _ _ _ hs e
      simp only [h1]
      exact .panic (.ret h2)
    | some r =>
      obtain ⟨rfl, h2⟩ := hq.live _ _ _ _ hs e
      simp only
      split
      · exact .after _ fun _ => .ret h2
      · exact .ret h2

theorem visit6_idle (hq : Quiets dead q cb) (f : Nat) (n : Ptr) (s : σ) (hs : dead s) : Idle dead (visit6 q f n s) := by
  refine .load n fun nc => ?_
  cases nc.d.value with
  | sub p =>
    simp only
    unfold ifNotNil; split
    · exact walk_idle (updateNode64_idle hq _) f p hs
    · exact .ret hs
  | user v => exact updateNode64_idle hq _ n s hs

theorem visit6_follows (hq : Quiets dead q cb) (f : Nat) (n : Ptr) (s : σ) (hs : ¬ dead s) : BreaksOff dead (visit6 q f n s) (visit6X cb f n s) := by
  refine .after _ fun nc => ?_
  cases nc.d.value with
  | sub p =>
    simp only
    unfold ifNotNil; split
    · exact walk_follows (updateNode64_idle hq _) (updateNode64_follows hq _) f p hs
    · exact .ret hs
  | user v => exact updateNode64_follows hq _ n s hs

theorem target6_follows (hq : Quiets dead q cb) (f : Nat) (k : Pair64) (target : Ptr) {s : σ} (hs : ¬ dead s) :
    BreaksOff dead (target6P q f k target s) (target6X cb f k target s) := by
  refine .after _ fun c => ?_
  cases c.d.value with
  | sub s2 =>
    refine .after _ fun sc => ?_
    have tail : ∀ target : Ptr, BreaksOff dead (if target = none then pure s else descP (updateNode64P q (key6s k.msKey)) f target s)
        (if target = none then pure s else descP (updateNode64X cb (key6s k.msKey)) f target s) := by
      intro target; split
      · exact .ret hs
      · exact desc_follows (updateNode64_idle hq _) (updateNode64_follows hq _) f target hs
    simp only
    split
    · exact tail s2
    · exact .after _ tail
  | user v => exact desc_follows (visit6_idle hq f) (visit6_follows hq f) f target hs

/-- `UpdateDescendants` with a callback that may panic breaks off where the quiet one starts to decline. -/
theorem update_follows (hq : Quiets dead q cb) (f : Nat) (t : Ptr) (n : Option IPNet) {s : σ} (hs : ¬ dead s) :
    BreaksOff dead (UpdateDescendantsP f q t n s) (UpdateDescendantsX f cb t n s) := by
  unfold UpdateDescendantsP UpdateDescendantsX
  cases n with
  | none => exact .stop
  | some n =>
    simp only
    cases v4Key n with
    | some kb =>
      refine .after _ fun r => BreaksOff.lift k32 ?_
      refine .after _ fun target => ?_
      split
      · exact .ret hs
      · exact desc_follows (visit4_idle hq) (visit4_follows hq) f target hs
    | none =>
      simp only
      cases v6Pair n with
      | none => exact .ret hs
      | some k =>
        refine .after _ fun r => BreaksOff.lift k64 ?_
        refine .after _ fun target => ?_
        split
        · exact .ret hs
        · exact target6_follows hq f k target hs

end Verif.IPHeap
