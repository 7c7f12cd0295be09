import Verif.RBHeap.Model
import Verif.Heap.GiveUp

/-!
# Red-black trees with a comparison function that may panic

The programs of `Verif/RBHeap/Model.lean` once more, with a comparison function of the client that gives no result (`none`) where it panics.
Everything else is as there.  A program cut off by such a panic has done the first accesses of the program with the comparison function completed.
-/

namespace Verif.Heap
open Prog
variable {D α β : Type}

/-- `p` does what `q` does, but may panic at any point. -/
inductive Cut : Prog D α → Prog D α → Prop where
  | panic (q) : Cut (.stop .panic) q
  | ret (x) : Cut (.ret x) (.ret x)
  | stop (e) : Cut (.stop e) (.stop e)
  | read (a k k') : (∀ c, Cut (k c) (k' c)) → Cut (.read a k) (.read a k')
  | write (a c k k') : Cut k k' → Cut (.write a c k) (.write a c k')
  | alloc (c k k') : (∀ a, Cut (k a) (k' a)) → Cut (.alloc c k) (.alloc c k')

theorem Cut.refl (p : Prog D α) : Cut p p := by
  induction p with
  | ret x => exact .ret x
  | stop e => exact .stop e
  | read a k ih => exact .read a k k ih
  | write a c k ih => exact .write a c k k ih
  | alloc c k ih => exact .alloc c k k ih

theorem Cut.bind {p q : Prog D α} {f g : α → Prog D β} (h : Cut p q) (hf : ∀ x, Cut (f x) (g x)) : Cut (p >>= f) (q >>= g) := by
  show Cut (p.bind f) (q.bind g)
  induction h with
  | panic q => exact .panic _
  | ret x => exact hf x
  | stop e => exact .stop e
  | read a k k' _ ih => exact .read a _ _ ih
  | write a c k k' _ ih => exact .write a c _ _ ih
  | alloc c k k' _ ih => exact .alloc c _ _ ih

/-- Execution, with the memory at the end also if it ends in a panic. -/
def Prog.runH : Prog D α → Heap D → Except Err α × Heap D
  | .ret x, h => (.ok x, h)
  | .stop e, h => (.error e, h)
  | .read a k, h =>
    match h.mem a with
    | some c => (k c).runH h
    | none => (.error .panic, h)
  | .write a c k, h => k.runH (h.put a c)
  | .alloc c k, h => (k h.next).runH (h.push c)

theorem runH_ok {p : Prog D α} {h h' : Heap D} {x : α} : p.runH h = (.ok x, h') ↔ p.run h = .ok (x, h') := by
  induction p generalizing h with
  | ret y => simp [Prog.runH, Prog.run]
  | stop e => simp [Prog.runH, Prog.run]
  | read a k ih =>
    simp only [Prog.runH, Prog.run]
    cases h.mem a with
    | none => simp
    | some c => exact ih c
  | write a c k ih => exact ih
  | alloc c k ih => exact ih _

/-- A program that may panic ends as the other one, or panics having done some of its accesses. -/
theorem Cut.runH {p q : Prog D α} (hc : Cut p q) (h : Heap D) : p.runH h = q.runH h ∨ ∃ k, p.runH h = (.error .panic, q.haltAt k h) := by
  induction hc generalizing h with
  | panic q => exact .inr ⟨0, rfl⟩
  | ret x => exact .inl rfl
  | stop e => exact .inl rfl
  | read a k k' _ ih =>
    simp only [Prog.runH]
    cases hm : h.mem a with
    | none => exact .inl rfl
    | some c =>
      rcases ih c h with e | ⟨n, e⟩
      · exact .inl e
      · exact .inr ⟨n + 1, by simp only [haltAt, Prog.step, hm]; exact e⟩
  | write a c k k' _ ih =>
    rcases ih (h.put a c) with e | ⟨n, e⟩
    · exact .inl e
    · exact .inr ⟨n + 1, e⟩
  | alloc c k k' _ ih =>
    rcases ih h.next (h.push c) with e | ⟨n, e⟩
    · exact .inl e
    · exact .inr ⟨n + 1, e⟩

end Verif.Heap

namespace Verif.RBHeap
open Verif.Heap Verif.Heap.Prog Verif.RB
variable {K V : Type}

/-- `compare(a, b)` -/
def callCmp (cmp : K → K → Option Int) (a b : K) : Prog (RD K V) Int := match cmp a b with
  | some r => pure r
  | none => .stop .panic

/-- One iteration of `insert`. strtree/node.go:92-166. -/
def insIterX [Inhabited V] (cmp : K → K → Option Int) (key : K) (s : St) (c : Ptr × Ptr) : Prog (RD K V) (St × (Ptr × Ptr)) := do
  let parentDir := s.dir
  let dir := decide (s.r < 0)
  let gp := s.g
  let g := s.p
  let p := s.n
  let m ← load s.n
  let v ← enterCow key (m.child dir) (if dir then c.2 else c.1)
  let n := v.1
  setChld p dir n
  let f ← fixP gp g p n parentDir
  let c ← reC f.2.2 n v.2
  let k ← load n
  let r ← callCmp cmp k.d.key key
  pure ({ dir := dir, g := f.1, p := f.2.1, n := n, r := r }, c)

/-- The loop of `insert`. strtree/node.go:91-167. -/
def insLoopX [Inhabited V] (cmp : K → K → Option Int) (key : K) : Nat → St → Ptr × Ptr → Prog (RD K V) St
  | 0, _, _ => .stop .fuel
  | f + 1, s, c =>
    if s.r ≠ 0 then do
      let x ← insIterX cmp key s c
      insLoopX cmp key f x.1 x.2
    else pure s

/-- strtree/node.go:60-173 `insert`. -/
def insertX [Inhabited K] [Inhabited V] (cmp : K → K → Option Int) (f : Nat) (n : Ptr) (key : K) (value : V) : Prog (RD K V) Ptr :=
  if n = none then do
    let a ← new ⟨{ key := key, value := value, red := false }, none, none⟩
    pure (some a)
  else do
    let root ← new ⟨{ key := default, value := default, red := false }, none, n⟩
    let s ← insLoopX cmp key f { dir := false, g := none, p := none, n := some root, r := -1 } (none, none)
    finish (some root) s.n value

/-- One iteration of `inplaceInsert`. strtree/node.go:193-235. -/
def inpIterX [Inhabited V] (cmp : K → K → Option Int) (key : K) (s : St) : Prog (RD K V) St := do
  let parentDir := s.dir
  let dir := decide (s.r < 0)
  let gp := s.g
  let g := s.p
  let p := s.n
  let m ← load s.n
  let n ← enterInp key p dir (m.child dir)
  let f ← fixP gp g p n parentDir
  let k ← load n
  let r ← callCmp cmp k.d.key key
  pure { dir := dir, g := f.1, p := f.2.1, n := n, r := r }

/-- The loop of `inplaceInsert`. strtree/node.go:192-236. -/
def inpLoopX [Inhabited V] (cmp : K → K → Option Int) (key : K) : Nat → St → Prog (RD K V) St
  | 0, _ => .stop .fuel
  | f + 1, s =>
    if s.r ≠ 0 then do
      let x ← inpIterX cmp key s
      inpLoopX cmp key f x
    else pure s

/-- strtree/node.go:175-241 `inplaceInsert`. -/
def inplaceInsertX [Inhabited K] [Inhabited V] (cmp : K → K → Option Int) (f : Nat) (n : Ptr) (key : K) (value : V) : Prog (RD K V) Ptr :=
  if n = none then do
    let a ← new ⟨{ key := key, value := value, red := false }, none, none⟩
    pure (some a)
  else do
    let root ← new ⟨{ key := default, value := default, red := false }, none, n⟩
    let s ← inpLoopX cmp key f { dir := false, g := none, p := none, n := some root, r := -1 }
    finish (some root) s.n value

/-- strtree/node.go:276-293 `get`. -/
def getX (cmp : K → K → Option Int) : Nat → Ptr → K → Prog (RD K V) (Option V)
  | 0, _, _ => .stop .fuel
  | f + 1, n, key =>
    if n ≠ none then do
      let c ← load n
      let r ← callCmp cmp c.d.key key
      if r = 0 then pure (some c.d.value)
      else getX cmp f (c.child (decide (r < 0))) key
    else pure none

/-- One iteration of `del`. strtree/node.go:328-385. -/
def delIterX (cmp : K → K → Option Int) (key : K) (s : DSt) : Prog (RD K V) DSt := do
  let pDir := s.dir
  let g := s.p
  let p := s.n
  let cn ← load s.n
  let x ← fullCopy (cn.child s.dir)
  setChld s.n s.dir x
  let cn ← load s.n
  let n := cn.child s.dir
  let k ← load n
  let r ← callCmp cmp k.d.key key
  let dir := decide (r < 0)
  let t := if r = 0 then n else s.t
  let p ← delFixP g p n pDir dir
  pure { p := p, n := n, t := t, dir := dir }

/-- The loop of `del`. strtree/node.go:327-386. -/
def delLoopX (cmp : K → K → Option Int) (key : K) : Nat → DSt → Prog (RD K V) DSt
  | 0, _ => .stop .fuel
  | f + 1, s => do
    let c ← load s.n
    if c.child s.dir ≠ none then
      let s ← delIterX cmp key s
      delLoopX cmp key f s
    else pure s

/-- strtree/node.go:307-410 `del`. -/
def delX [Inhabited K] [Inhabited V] (cmp : K → K → Option Int) (f : Nat) (n : Ptr) (key : K) : Prog (RD K V) (Ptr × Bool) := do
  let root ← new ⟨{ key := default, value := default, red := false }, none, n⟩
  let s ← delLoopX cmp key f { p := none, n := some root, t := none, dir := true }
  delEndP s
  let rc ← load (some root)
  if rc.c1 ≠ none then
    setRedP rc.c1 false
    pure (rc.c1, decide (s.t ≠ none))
  else pure (rc.c1, decide (s.t ≠ none))

/-! ## Where the comparison function does not panic it is `cmp` -/

/-- The comparison function gives the results of `cmp` or panics. -/
def PartOf (cm : K → K → Option Int) (cmp : K → K → Int) : Prop := ∀ a b r, cm a b = some r → r = cmp a b

variable {cm : K → K → Option Int} {cmp : K → K → Int} (h : PartOf cm cmp)
include h

theorem callCmp_cut (a b : K) {β : Type} (f : Int → Prog (RD K V) β) : Cut (callCmp cm a b >>= f) (f (cmp a b)) := by
  unfold callCmp
  cases hr : cm a b with
  | none => exact .panic _
  | some r => rw [← h a b r hr]; exact Cut.refl (f r)

theorem insLoop_cut [Inhabited V] (key : K) (f : Nat) (s : St) (c : Ptr × Ptr) : Cut (insLoopX cm key f s c) (insLoopP (V := V) cmp key f s c) := by
  induction f generalizing s c with
  | zero => exact .stop _
  | succ f ih =>
    unfold insLoopX insLoopP
    split
    · refine Cut.bind ?_ fun x => ih _ _
      refine Cut.bind (.refl _) fun m => Cut.bind (.refl _) fun v => Cut.bind (.refl _) fun _ => Cut.bind (.refl _) fun q => Cut.bind (.refl _) fun c =>
        Cut.bind (.refl _) fun k => ?_
      exact callCmp_cut h _ _ _
    · exact .refl _

theorem insert_cut [Inhabited K] [Inhabited V] (f : Nat) (n : Ptr) (key : K) (value : V) : Cut (insertX cm f n key value) (insertP cmp f n key value) := by
  unfold insertX insertP
  split
  · exact .refl _
  · exact Cut.bind (.refl _) fun root => Cut.bind (insLoop_cut h key f _ _) fun s => .refl _

theorem inpLoop_cut [Inhabited V] (key : K) (f : Nat) (s : St) : Cut (inpLoopX cm key f s) (inpLoopP (V := V) cmp key f s) := by
  induction f generalizing s with
  | zero => exact .stop _
  | succ f ih =>
    unfold inpLoopX inpLoopP
    split
    · refine Cut.bind ?_ fun x => ih _
      refine Cut.bind (.refl _) fun m => Cut.bind (.refl _) fun v => Cut.bind (.refl _) fun _ => Cut.bind (.refl _) fun k => ?_
      exact callCmp_cut h _ _ _
    · exact .refl _

theorem inplaceInsert_cut [Inhabited K] [Inhabited V] (f : Nat) (n : Ptr) (key : K) (value : V) :
    Cut (inplaceInsertX cm f n key value) (inplaceInsertP cmp f n key value) := by
  unfold inplaceInsertX inplaceInsertP
  split
  · exact .refl _
  · exact Cut.bind (.refl _) fun root => Cut.bind (inpLoop_cut h key f _) fun s => .refl _

theorem get_cut (f : Nat) (n : Ptr) (key : K) : Cut (getX cm f n key) (getP (V := V) cmp f n key) := by
  induction f generalizing n with
  | zero => exact .stop _
  | succ f ih =>
    unfold getX getP
    split
    · refine Cut.bind (.refl _) fun c => ?_
      unfold callCmp
      cases hr : cm c.d.key key with
      | none => exact .panic _
      | some r =>
        show Cut (if r = 0 then _ else _) (if cmp c.d.key key = 0 then _ else _)
        rw [h _ _ _ hr]
        split
        · exact .refl _
        · exact ih _
    · exact .refl _

theorem delLoop_cut (key : K) (f : Nat) (s : DSt) : Cut (delLoopX cm key f s) (delLoopP (V := V) cmp key f s) := by
  induction f generalizing s with
  | zero => exact .stop _
  | succ f ih =>
    unfold delLoopX delLoopP
    refine Cut.bind (.refl _) fun c => ?_
    split
    · refine Cut.bind ?_ fun x => ih _
      refine Cut.bind (.refl _) fun m => Cut.bind (.refl _) fun v => Cut.bind (.refl _) fun _ => Cut.bind (.refl _) fun q => Cut.bind (.refl _) fun k => ?_
      exact callCmp_cut h _ _ _
    · exact .refl _

theorem del_cut [Inhabited K] [Inhabited V] (f : Nat) (n : Ptr) (key : K) : Cut (delX cm f n key) (delP (V := V) cmp f n key) := by
  unfold delX delP
  exact Cut.bind (.refl _) fun root => Cut.bind (delLoop_cut h key f _) fun s => .refl _

omit h

/-! ## A comparison function that never panics -/

theorem callCmp_total (cmp : K → K → Int) (a b : K) {β : Type} (f : Int → Prog (RD K V) β) : (callCmp (fun a b => some (cmp a b)) a b >>= f) = f (cmp a b) := rfl

theorem insLoop_total [Inhabited V] (key : K) (f : Nat) (s : St) (c : Ptr × Ptr) :
    insLoopX (fun a b => some (cmp a b)) key f s c = insLoopP (V := V) cmp key f s c := by
  induction f generalizing s c with
  | zero => rfl
  | succ f ih =>
    unfold insLoopX insLoopP
    have : insIterX (V := V) (fun a b => some (cmp a b)) key s c = insIter cmp key s c := rfl
    rw [this]; simp only [ih]

theorem inpLoop_total [Inhabited V] (key : K) (f : Nat) (s : St) : inpLoopX (fun a b => some (cmp a b)) key f s = inpLoopP (V := V) cmp key f s := by
  induction f generalizing s with
  | zero => rfl
  | succ f ih =>
    unfold inpLoopX inpLoopP
    have : inpIterX (V := V) (fun a b => some (cmp a b)) key s = inpIter cmp key s := rfl
    rw [this]; simp only [ih]

theorem delLoop_total (key : K) (f : Nat) (s : DSt) : delLoopX (fun a b => some (cmp a b)) key f s = delLoopP (V := V) cmp key f s := by
  induction f generalizing s with
  | zero => rfl
  | succ f ih =>
    unfold delLoopX delLoopP
    have : delIterX (V := V) (fun a b => some (cmp a b)) key s = delIter cmp key s := rfl
    rw [this]; simp only [ih]

theorem insert_total [Inhabited K] [Inhabited V] (f : Nat) (n : Ptr) (key : K) (value : V) :
    insertX (fun a b => some (cmp a b)) f n key value = insertP cmp f n key value := by
  unfold insertX insertP; simp only [insLoop_total]

theorem inplaceInsert_total [Inhabited K] [Inhabited V] (f : Nat) (n : Ptr) (key : K) (value : V) :
    inplaceInsertX (fun a b => some (cmp a b)) f n key value = inplaceInsertP cmp f n key value := by
  unfold inplaceInsertX inplaceInsertP; simp only [inpLoop_total]

theorem del_total [Inhabited K] [Inhabited V] (f : Nat) (n : Ptr) (key : K) : delX (fun a b => some (cmp a b)) f n key = delP (V := V) cmp f n key := by
  unfold delX delP; simp only [delLoop_total]

end Verif.RBHeap
