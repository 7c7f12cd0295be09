import Verif.Core.BTree

/-!
# Functional model of the red-black trees

strtree/node.go, strtree/strtree.go; the same algorithm is used by dltree/node.go (comparison: length, then
`strings.Compare`), uintX/strtree*/node.go and uintX/domaintree*/node.go.

The loops are modelled iteration by iteration.  The nodes `gp`, `g`, `p` above the current node are the head of a
context (a list of frames, nearest first); the fake root of strtree/node.go:66 and :309 is the end of the
context: it is always black, its left child is nil and its right child is the whole tree.  Pointer comparisons such as
`gp.chld[dirRight] == g` select the direction recorded in the frame.  Copies are invisible here; the heap model in
`Verif/RBHeap` has them.
-/

namespace Verif.RB

/-- Fields of `node` other than the children. strtree/node.go:10-16, dltree/node.go:15-21. -/
structure RD (K V : Type) where
  key : K
  value : V
  red : Bool
  deriving Repr, DecidableEq

abbrev RTree (K V : Type) := BTree (RD K V)

/-- A node on the path from the root to the current node: payload, direction taken, the other child.
`tgt` marks the node the variable `t` of `del` points to (strtree/node.go:320,343). -/
structure Frame (K V : Type) where
  d : RD K V
  dir : Bool
  sib : RTree K V
  tgt : Bool := false
  deriving Repr, DecidableEq

variable {K V : Type}

/-- `n != nil && n.red`. strtree/node.go:119,211,346,348,358,359,370. -/
def isRed : RTree K V → Bool
  | .nil => false
  | .node d _ _ => d.red

/-- Payload with another colour. strtree/node.go:120,171,251-257,265,266. -/
def RD.col (d : RD K V) (c : Bool) : RD K V := { d with red := c }

/-- Node with another colour. strtree/node.go:171,239,251-257,407. -/
def setRed (c : Bool) : RTree K V → RTree K V
  | .nil => .nil
  | .node d l r => .node (d.col c) l r

/-- Rebuild the tree around the current node. -/
def plug (t : RTree K V) : List (Frame K V) → RTree K V
  | [] => t
  | f :: fs => plug (.mk2 f.d f.dir t f.sib) fs

/-- `p.red`, where the fake root is black. strtree/node.go:132,218. -/
def parentRed : List (Frame K V) → Bool
  | [] => false
  | f :: _ => f.d.red

/-! ## insert -/

/-- First half of an iteration: new red node, or colour flip. strtree/node.go:105-128, 204-216. -/
def visit [Inhabited V] (key : K) : RTree K V → RTree K V
  | .nil => .node { key := key, value := default, red := true } .nil .nil
  | .node d l r =>
    if isRed l && isRed r then .node (d.col true) (setRed false l) (setRed false r) else .node d l r

/-- Second half: repair of a red violation by single or double rotation. strtree/node.go:131-163, 218-231 with
`single`/`double` (259-274) unfolded.  `none` is the nil dereference of `gp` (135) that happens if a red parent
is the root. -/
def fix (ctx : List (Frame K V)) (n : RTree K V) : Option (List (Frame K V) × RTree K V) :=
  if isRed n && parentRed ctx then
    match ctx, n with
    | P :: G :: rest, .node nd nl nr =>
      if P.dir = G.dir then
        some ({ d := P.d.col false, dir := P.dir, sib := .mk2 (G.d.col true) G.dir P.sib G.sib } :: rest, .node nd nl nr)
      else
        let n := BTree.node nd nl nr
        some (rest, .mk2 (nd.col false) G.dir
          (.mk2 (P.d.col true) G.dir P.sib (n.child G.dir))
          (.mk2 (G.d.col true) G.dir (n.child (!G.dir)) G.sib))
    | _, _ => none
  else some (ctx, n)

/-- The loop of `insert`/`inplaceInsert`. strtree/node.go:91-168, 192-236.  `none` is a nil dereference or
exhausted fuel. -/
def insLoop [Inhabited V] (cmp : K → K → Int) (key : K) (value : V) : Nat → List (Frame K V) → RTree K V → Option (RTree K V)
  | 0, _, _ => none
  | fuel + 1, ctx, foc =>
    match fix ctx (visit key foc) with
    | some (ctx', .node d l r) =>
      let c := cmp d.key key
      if c = 0 then some (plug (.node { d with value := value } l r) ctx')
      else if c < 0 then insLoop cmp key value fuel ({ d := d, dir := true, sib := l } :: ctx') r
      else insLoop cmp key value fuel ({ d := d, dir := false, sib := r } :: ctx') l
    | _ => none

/-- strtree/node.go:60-173 `insert`; 175-241 `inplaceInsert` computes the same tree in place.  The fuel is proved to
be enough. -/
def insert [Inhabited V] (cmp : K → K → Int) (t : RTree K V) (key : K) (value : V) : Option (RTree K V) :=
  match t with
  | .nil => some (.node { key := key, value := value, red := false } .nil .nil)
  | t => (insLoop cmp key value (2 * t.height + 2) [] t).map (setRed false)

/-! ## get, enumerate -/

/-- strtree/node.go:276-293 `get`, dltree/node.go:287-306. -/
def get (cmp : K → K → Int) : RTree K V → K → Option V
  | .nil, _ => none
  | .node d l r, key =>
    if cmp d.key key = 0 then some d.value
    else if cmp d.key key < 0 then get cmp r key else get cmp l key

/-- strtree/node.go:295-305 `enumerate`: pairs in the order they are sent. -/
def enumerate : RTree K V → List (K × V)
  | .nil => []
  | .node d l r => enumerate l ++ (d.key, d.value) :: enumerate r

/-! ## del -/

/-- Body of the deletion loop after the current node `f` (with child `x` in direction `f.dir` and `f.sib` on the other
side) has been copied and compared; returns the context whose head is the current node. strtree/node.go:346-385. -/
def delFix (ctx : List (Frame K V)) (f : Frame K V) (x : RTree K V) : List (Frame K V) :=
  if !f.d.red && !isRed x then
    match f.sib with
    | .node yd yl yr =>
      if yd.red then
        -- 348-351: single rotation brings the red child above the current node
        { f with d := f.d.col true, sib := (BTree.node yd yl yr).child f.dir } ::
        { d := yd.col false, dir := f.dir, sib := (BTree.node yd yl yr).child (!f.dir) } :: ctx
      else delSib ctx f
    | .nil => delSib ctx f
  else f :: ctx
where
  /-- strtree/node.go:353-383: borrow from the sibling of the current node. -/
  delSib (ctx : List (Frame K V)) (f : Frame K V) : List (Frame K V) :=
    match ctx with
    | P :: rest =>
      match P.sib with
      | .node sd sl sr =>
        let s := BTree.node sd sl sr
        if !isRed sl && !isRed sr then
          { f with d := f.d.col true } :: { P with d := P.d.col false, sib := .node (sd.col true) sl sr } :: rest
        else
          match s.child P.dir with
          | .node xd xl xr =>
            let x := BTree.node xd xl xr
            if xd.red then
              { f with d := f.d.col true } :: { P with d := P.d.col false, sib := x.child P.dir } ::
              { d := xd.col true, dir := P.dir, sib := .mk2 (sd.col false) P.dir (x.child (!P.dir)) (s.child (!P.dir)) } :: rest
            else single P f rest sd s
          | .nil => single P f rest sd s
      | .nil => f :: ctx
    | [] => f :: ctx
  /-- strtree/node.go:373-381: single rotation at the parent. -/
  single (P f : Frame K V) (rest : List (Frame K V)) (sd : RD K V) (s : RTree K V) : List (Frame K V) :=
    { f with d := f.d.col true } :: { P with d := P.d.col false, sib := s.child P.dir } ::
    { d := sd.col true, dir := P.dir, sib := setRed false (s.child (!P.dir)) } :: rest

/-- `t.key = n.key; t.value = n.value` for the most recent target. strtree/node.go:389-390. -/
def setTgt (key : K) (value : V) : List (Frame K V) → List (Frame K V)
  | [] => []
  | f :: fs => if f.tgt then { f with d := { f.d with key := key, value := value } } :: fs else f :: setTgt key value fs

/-- After the loop: the head of the context is the last node, without child in its direction.
strtree/node.go:388-403. -/
def delEnd : List (Frame K V) → RTree K V × Bool
  | [] => (.nil, false)
  | f :: rest =>
    if f.tgt then (plug f.sib rest, true)
    else if rest.any (·.tgt) then (plug f.sib (setTgt f.d.key f.d.value rest), true)
    else (plug (.mk2 f.d f.dir .nil f.sib) rest, false)

/-- The loop of `del`. strtree/node.go:327-386. -/
def delLoop (cmp : K → K → Int) (key : K) : List (Frame K V) → RTree K V → RTree K V × Bool
  | ctx, .nil => delEnd ctx
  | ctx, .node d l r =>
    let c := cmp d.key key
    if c < 0 then delLoop cmp key (delFix ctx { d := d, dir := true, sib := l, tgt := false } r) r
    else delLoop cmp key (delFix ctx { d := d, dir := false, sib := r, tgt := c = 0 } l) l

/-- strtree/node.go:307-410 `del`. -/
def del (cmp : K → K → Int) (t : RTree K V) (key : K) : RTree K V × Bool :=
  let x := delLoop cmp key [] t
  (setRed false x.1, x.2)

end Verif.RB
