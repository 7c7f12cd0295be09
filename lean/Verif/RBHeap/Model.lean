import Verif.Heap.Prog
import Verif.RB.Model

/-!
# Pointer-level model of the red-black trees

The functions of strtree/node.go as programs over a memory of nodes, statement by statement.  dltree/node.go has the same
functions with the comparison (length, then `strings.Compare`) written in place; uintX/strtree*/node.go and
uintX/domaintree*/node.go are generated copies.  The cell payload is `RD K V` (`key`, `value`, `red`), the two pointers are
`chld`.  The comparison is a pure function.  Loops and recursive functions carry a bound; the theorems say which bounds are
large enough.
-/

namespace Verif.RBHeap
open Verif.Heap Verif.Heap.Prog Verif.RB

variable {K V : Type}

/-- `n.chld[b] = q` -/
def setChld (n : Ptr) (b : Bool) (q : Ptr) : Prog (RD K V) Unit := upd n (·.setChild b q)
/-- `n.red = b` -/
def setRedP (n : Ptr) (b : Bool) : Prog (RD K V) Unit := upd n fun c => { c with d := c.d.col b }
/-- `n.red` -/
def redP (n : Ptr) : Prog (RD K V) Bool := do
  let c ← load n
  pure c.d.red
/-- `n != nil && n.red` -/
def isRedP (n : Ptr) : Prog (RD K V) Bool := ifNotNil n false (redP n)
/-- `x && k` with short-circuit evaluation -/
def andP {D : Type} (x : Bool) (k : Prog D Bool) : Prog D Bool := if x then k else pure false

/-- strtree/node.go:243-249 `fullCopy`. -/
def fullCopy (n : Ptr) : Prog (RD K V) Ptr := do
  let c ← load n
  let a ← new c
  pure (some a)

/-- strtree/node.go:251-257 `colorCopy`. -/
def colorCopy (n : Ptr) (color : Bool) : Prog (RD K V) Ptr := do
  let c ← load n
  let a ← new { c with d := c.d.col color }
  pure (some a)

/-- strtree/node.go:259-269 `single`. -/
def single (n : Ptr) (dir : Bool) : Prog (RD K V) Ptr := do
  let cn ← load n
  let s := cn.child dir
  let cs ← load s
  setChld n dir (cs.child (!dir))
  setChld s (!dir) n
  setRedP n true
  setRedP s false
  pure s

/-- strtree/node.go:271-274 `double`. -/
def double (n : Ptr) (dir : Bool) : Prog (RD K V) Ptr := do
  let cn ← load n
  let x ← single (cn.child dir) (!dir)
  setChld n dir x
  single n dir

/-! ## insert, inplaceInsert -/

/-- Loop variables of `insert` and `inplaceInsert` (`gp` is always assigned before use): `dir`, `g`, `p`, `n`, `r`.
strtree/node.go:67-91, 181-192. -/
structure St where
  dir : Bool
  g : Ptr
  p : Ptr
  n : Ptr
  r : Int

/-- Condition of the colour flip. strtree/node.go:119, 211. -/
def flipCond (n : Ptr) : Prog (RD K V) Bool := do
  let c ← load n
  if c.c0 ≠ none ∧ c.c1 ≠ none then
    let l ← redP c.c0
    andP l (redP c.c1)
  else pure false

/-- `if n != c[dir] { n = n.fullCopy() }`. strtree/node.go:114-116. -/
def copyUnless (q cd : Ptr) : Prog (RD K V) Ptr := if q ≠ cd then fullCopy q else pure q

/-- Colour flip on copies; gives the new array `c`. strtree/node.go:119-127. -/
def flipCow (n : Ptr) : Prog (RD K V) (Ptr × Ptr) := do
  let b ← flipCond n
  if b then
    setRedP n true
    let c ← load n
    let l ← colorCopy c.c0 false
    let r ← colorCopy c.c1 false
    upd n fun c => { c with c0 := l, c1 := r }
    pure (l, r)
  else pure (none, none)

/-- First half of an iteration of `insert`: the copy of the current node and the array `c`. strtree/node.go:105-128. -/
def enterCow [Inhabited V] (key : K) (q cd : Ptr) : Prog (RD K V) (Ptr × (Ptr × Ptr)) :=
  if q = none then do
    let n ← new ⟨{ key := key, value := default, red := true }, none, none⟩
    pure (some n, (none, none))
  else do
    let n ← copyUnless q cd
    let c ← flipCow n
    pure (n, c)

/-- Colour flip in place. strtree/node.go:211-215. -/
def flipInp (n : Ptr) : Prog (RD K V) Unit := do
  let b ← flipCond n
  if b then
    setRedP n true
    let c ← load n
    setRedP c.c0 false
    let c ← load n
    setRedP c.c1 false
  else pure ()

/-- First half of an iteration of `inplaceInsert`. strtree/node.go:204-216. -/
def enterInp [Inhabited V] (key : K) (p : Ptr) (dir : Bool) (q : Ptr) : Prog (RD K V) Ptr :=
  if q = none then do
    let n ← new ⟨{ key := key, value := default, red := true }, none, none⟩
    setChld p dir (some n)
    pure (some n)
  else do
    flipInp q
    pure q

/-- Repair of a red violation; gives `g`, `p` and whether the rotation was double. strtree/node.go:132-162, 218-231. -/
def rotP (gp g p n : Ptr) (parentDir : Bool) : Prog (RD K V) (Ptr × Ptr × Bool) := do
  let cgp ← load gp
  let grandParentDir := decide (cgp.c1 = g)
  let cp ← load p
  if n = cp.child parentDir then
    let x ← single g parentDir
    setChld gp grandParentDir x
    pure (gp, p, false)
  else
    let x ← double g parentDir
    setChld gp grandParentDir x
    pure (g, gp, true)

/-- strtree/node.go:132-163, 218-231. -/
def fixP (gp g p n : Ptr) (parentDir : Bool) : Prog (RD K V) (Ptr × Ptr × Bool) := do
  let b ← redP n
  let b ← andP b (isRedP p)
  if b then rotP gp g p n parentDir else pure (g, p, false)

/-- `c = n.chld` after a double rotation. strtree/node.go:160. -/
def reC (dbl : Bool) (n : Ptr) (c : Ptr × Ptr) : Prog (RD K V) (Ptr × Ptr) :=
  if dbl then do
    let k ← load n
    pure (k.c0, k.c1)
  else pure c

/-- One iteration of `insert`. strtree/node.go:92-166. -/
def insIter [Inhabited V] (cmp : K → K → Int) (key : K) (s : St) (c : Ptr × Ptr) : Prog (RD K V) (St × (Ptr × Ptr)) := do
  let parentDir := s.dir
  let dir := decide (s.r < 0)
  let gp := s.g
  let g := s.p
  let p := s.n
  let m ← load s.n
  let v ← enterCow key (m.child dir) (if dir then c.2 else c.1)
  let n := v.1
  setChld p dir n
  let f ← fixP gp g p n parentDir
  let c ← reC f.2.2 n v.2
  let k ← load n
  pure ({ dir := dir, g := f.1, p := f.2.1, n := n, r := cmp k.d.key key }, c)

/-- The loop of `insert`. strtree/node.go:91-167. -/
def insLoopP [Inhabited V] (cmp : K → K → Int) (key : K) : Nat → St → Ptr × Ptr → Prog (RD K V) St
  | 0, _, _ => .stop .fuel
  | f + 1, s, c =>
    if s.r ≠ 0 then do
      let x ← insIter cmp key s c
      insLoopP cmp key f x.1 x.2
    else pure s

/-- `n.value = value; n = root.chld[dirRight]; n.red = false; return n`. strtree/node.go:169-172, 237-240. -/
def finish (root n : Ptr) (value : V) : Prog (RD K V) Ptr := do
  upd n fun c => { c with d := { c.d with value := value } }
  let rc ← load root
  setRedP rc.c1 false
  pure rc.c1

/-- strtree/node.go:60-173 `insert`. -/
def insertP [Inhabited K] [Inhabited V] (cmp : K → K → Int) (f : Nat) (n : Ptr) (key : K) (value : V) : Prog (RD K V) Ptr :=
  if n = none then do
    let a ← new ⟨{ key := key, value := value, red := false }, none, none⟩
    pure (some a)
  else do
    let root ← new ⟨{ key := default, value := default, red := false }, none, n⟩
    let s ← insLoopP cmp key f { dir := false, g := none, p := none, n := some root, r := -1 } (none, none)
    finish (some root) s.n value

/-- One iteration of `inplaceInsert`. strtree/node.go:193-235. -/
def inpIter [Inhabited V] (cmp : K → K → Int) (key : K) (s : St) : Prog (RD K V) St := do
  let parentDir := s.dir
  let dir := decide (s.r < 0)
  let gp := s.g
  let g := s.p
  let p := s.n
  let m ← load s.n
  let n ← enterInp key p dir (m.child dir)
  let f ← fixP gp g p n parentDir
  let k ← load n
  pure { dir := dir, g := f.1, p := f.2.1, n := n, r := cmp k.d.key key }

/-- The loop of `inplaceInsert`. strtree/node.go:192-236. -/
def inpLoopP [Inhabited V] (cmp : K → K → Int) (key : K) : Nat → St → Prog (RD K V) St
  | 0, _ => .stop .fuel
  | f + 1, s =>
    if s.r ≠ 0 then do
      let x ← inpIter cmp key s
      inpLoopP cmp key f x
    else pure s

/-- strtree/node.go:175-241 `inplaceInsert`. -/
def inplaceInsertP [Inhabited K] [Inhabited V] (cmp : K → K → Int) (f : Nat) (n : Ptr) (key : K) (value : V) : Prog (RD K V) Ptr :=
  if n = none then do
    let a ← new ⟨{ key := key, value := value, red := false }, none, none⟩
    pure (some a)
  else do
    let root ← new ⟨{ key := default, value := default, red := false }, none, n⟩
    let s ← inpLoopP cmp key f { dir := false, g := none, p := none, n := some root, r := -1 }
    finish (some root) s.n value

/-! ## get, enumerate -/

/-- strtree/node.go:276-293 `get`. -/
def getP (cmp : K → K → Int) : Nat → Ptr → K → Prog (RD K V) (Option V)
  | 0, _, _ => .stop .fuel
  | f + 1, n, key =>
    if n ≠ none then do
      let c ← load n
      let r := cmp c.d.key key
      if r = 0 then pure (some c.d.value)
      else getP cmp f (c.child (decide (r < 0))) key
    else pure none

/-- strtree/node.go:295-305 `enumerate`: the pairs in the order they are sent. -/
def enumerateP : Nat → Ptr → Prog (RD K V) (List (K × V))
  | 0, _ => .stop .fuel
  | f + 1, n =>
    if n = none then pure []
    else do
      let c ← load n
      let l ← enumerateP f c.c0
      let r ← enumerateP f c.c1
      pure (l ++ (c.d.key, c.d.value) :: r)

/-! ## del -/

/-- Loop variables of `del`: `g` is always assigned before use. strtree/node.go:312-329. -/
structure DSt where
  p : Ptr
  n : Ptr
  t : Ptr
  dir : Bool

/-- The sibling has no red child. strtree/node.go:358-359. -/
def noRedChild (s : Ptr) : Prog (RD K V) Bool := do
  let c ← load s
  let l ← isRedP c.c0
  let c ← load s
  andP (!l) do
    let r ← isRedP c.c1
    pure (!r)

/-- strtree/node.go:364-382. -/
def borrowP (g p n s : Ptr) (pDir : Bool) : Prog (RD K V) Unit := do
  let nPDir := !pDir
  let cg ← load g
  let gpDir := decide (cg.c1 = p)
  let cs ← load s
  let b ← isRedP (cs.child pDir)
  if b then
    let x ← fullCopy (cs.child pDir)
    setChld s pDir x
    let y ← double p nPDir
    setChld g gpDir y
  else
    let x ← fullCopy (cs.child nPDir)
    setChld s nPDir x
    let y ← single p nPDir
    setChld g gpDir y
  setRedP n true
  let cg ← load g
  setRedP (cg.child gpDir) true
  let cx ← load (cg.child gpDir)
  setRedP cx.c0 false
  let cx ← load (cg.child gpDir)
  setRedP cx.c1 false

/-- strtree/node.go:353-383. -/
def siblingP (g p n : Ptr) (pDir : Bool) : Prog (RD K V) Unit := do
  let nPDir := !pDir
  let cp ← load p
  let s := cp.child nPDir
  if s ≠ none then
    let s ← fullCopy s
    setChld p nPDir s
    let b ← noRedChild s
    if b then
      setRedP p false
      setRedP n true
      setRedP s true
    else borrowP g p n s pDir
  else pure ()

/-- strtree/node.go:346-384; gives `p`. -/
def delFixP (g p n : Ptr) (pDir dir : Bool) : Prog (RD K V) Ptr := do
  let cn ← load n
  let b ← andP (!cn.d.red) do
    let r ← isRedP (cn.child dir)
    pure (!r)
  if b then
    let nDir := !dir
    let y ← isRedP (cn.child nDir)
    if y then
      let x ← fullCopy (cn.child nDir)
      setChld n nDir x
      let s ← single n nDir
      setChld p pDir s
      let cp ← load p
      pure (cp.child pDir)
    else do
      siblingP g p n pDir
      pure p
  else pure p

/-- One iteration of `del`. strtree/node.go:328-385. -/
def delIter (cmp : K → K → Int) (key : K) (s : DSt) : Prog (RD K V) DSt := do
  let pDir := s.dir
  let g := s.p
  let p := s.n
  let cn ← load s.n
  let x ← fullCopy (cn.child s.dir)
  setChld s.n s.dir x
  let cn ← load s.n
  let n := cn.child s.dir
  let k ← load n
  let r := cmp k.d.key key
  let dir := decide (r < 0)
  let t := if r = 0 then n else s.t
  let p ← delFixP g p n pDir dir
  pure { p := p, n := n, t := t, dir := dir }

/-- The loop of `del`. strtree/node.go:327-386. -/
def delLoopP (cmp : K → K → Int) (key : K) : Nat → DSt → Prog (RD K V) DSt
  | 0, _ => .stop .fuel
  | f + 1, s => do
    let c ← load s.n
    if c.child s.dir ≠ none then
      let s ← delIter cmp key s
      delLoopP cmp key f s
    else pure s

/-- strtree/node.go:388-403. -/
def delEndP (s : DSt) : Prog (RD K V) Unit :=
  if s.t ≠ none then do
    let cn ← load s.n
    upd s.t fun c => { c with d := { c.d with key := cn.d.key } }
    let cn ← load s.n
    upd s.t fun c => { c with d := { c.d with value := cn.d.value } }
    let cp ← load s.p
    let dir := decide (cp.c1 = s.n)
    let cn ← load s.n
    let chldDir := decide (cn.c0 = none)
    setChld s.p dir (cn.child chldDir)
  else pure ()

/-- strtree/node.go:307-410 `del`. -/
def delP [Inhabited K] [Inhabited V] (cmp : K → K → Int) (f : Nat) (n : Ptr) (key : K) : Prog (RD K V) (Ptr × Bool) := do
  let root ← new ⟨{ key := default, value := default, red := false }, none, n⟩
  let s ← delLoopP cmp key f { p := none, n := some root, t := none, dir := true }
  delEndP s
  let rc ← load (some root)
  if rc.c1 ≠ none then
    setRedP rc.c1 false
    pure (rc.c1, decide (s.t ≠ none))
  else pure (rc.c1, decide (s.t ≠ none))

end Verif.RBHeap
