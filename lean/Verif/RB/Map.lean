import Verif.RB.Order
import Verif.RB.Balance
import Verif.Num.Map

/-! # The red-black tree operations do not look at the values -/

namespace Verif.RB
variable {K V W : Type}

/-- Change the value of a node. -/
def RD.mapV (f : V → W) (d : RD K V) : RD K W := ⟨d.key, f d.value, d.red⟩
/-- Change all values. -/
def mapT (f : V → W) (t : RTree K V) : RTree K W := t.map (RD.mapV f)
/-- Change the values of a frame. -/
def Frame.mapV (f : V → W) (F : Frame K V) : Frame K W := ⟨F.d.mapV f, F.dir, mapT f F.sib, F.tgt⟩

@[simp] theorem mapV_key (f : V → W) (d : RD K V) : (d.mapV f).key = d.key := rfl
@[simp] theorem mapV_value (f : V → W) (d : RD K V) : (d.mapV f).value = f d.value := rfl
@[simp] theorem mapV_red (f : V → W) (d : RD K V) : (d.mapV f).red = d.red := rfl
@[simp] theorem mapV_col (f : V → W) (d : RD K V) (c : Bool) : (d.col c).mapV f = (d.mapV f).col c := rfl
@[simp] theorem mapT_nil (f : V → W) : mapT f (.nil : RTree K V) = .nil := rfl
@[simp] theorem mapT_node (f : V → W) (d : RD K V) (l r : RTree K V) : mapT f (.node d l r) = .node (d.mapV f) (mapT f l) (mapT f r) := rfl
@[simp] theorem mapT_mk2 (f : V → W) (d : RD K V) (b : Bool) (x y : RTree K V) : mapT f (.mk2 d b x y) = .mk2 (d.mapV f) b (mapT f x) (mapT f y) :=
  BTree.map_mk2 _ _ _ _ _
@[simp] theorem mapT_child (f : V → W) (t : RTree K V) (b : Bool) : (mapT f t).child b = mapT f (t.child b) := by
  cases t <;> cases b <;> rfl
@[simp] theorem isNil_mapT (f : V → W) (t : RTree K V) : (mapT f t).isNil = t.isNil := BTree.isNil_map _ _
@[simp] theorem height_mapT (f : V → W) (t : RTree K V) : (mapT f t).height = t.height := BTree.height_map _ _
@[simp] theorem isRed_mapT (f : V → W) (t : RTree K V) : isRed (mapT f t) = isRed t := by cases t <;> rfl
@[simp] theorem setRed_mapT (f : V → W) (c : Bool) (t : RTree K V) : setRed c (mapT f t) = mapT f (setRed c t) := by cases t <;> rfl
@[simp] theorem Frame.mapV_d (f : V → W) (F : Frame K V) : (F.mapV f).d = F.d.mapV f := rfl
@[simp] theorem Frame.mapV_dir (f : V → W) (F : Frame K V) : (F.mapV f).dir = F.dir := rfl
@[simp] theorem Frame.mapV_sib (f : V → W) (F : Frame K V) : (F.mapV f).sib = mapT f F.sib := rfl
@[simp] theorem Frame.mapV_tgt (f : V → W) (F : Frame K V) : (F.mapV f).tgt = F.tgt := rfl

theorem mapT_congr {f g : V → W} {t : RTree K V} (h : ∀ p ∈ enumerate t, f p.2 = g p.2) : mapT f t = mapT g t := by
  induction t with
  | nil => rfl
  | node d l r ihl ihr =>
    simp only [enumerate, List.mem_append, List.mem_cons] at h
    simp only [mapT_node, ihl fun p hp => h p (.inl hp), ihr fun p hp => h p (.inr (.inr hp))]
    have := h (d.key, d.value) (.inr (.inl rfl))
    simp only at this
    simp [RD.mapV, this]

theorem plug_map (f : V → W) (t : RTree K V) (ctx : List (Frame K V)) : plug (mapT f t) (ctx.map (Frame.mapV f)) = mapT f (plug t ctx) := by
  induction ctx generalizing t with
  | nil => rfl
  | cons F ctx ih => simp only [List.map_cons, plug, ← ih, mapT_mk2, Frame.mapV_d, Frame.mapV_dir, Frame.mapV_sib]

@[simp] theorem parentRed_map (f : V → W) (ctx : List (Frame K V)) : parentRed (ctx.map (Frame.mapV f)) = parentRed ctx := by
  cases ctx <;> rfl

theorem visit_map [Inhabited V] [Inhabited W] {f : V → W} (hf : f default = default) (key : K) (t : RTree K V) : visit key (mapT f t) = mapT f (visit key t) := by
  cases t with
  | nil => simp [visit, RD.mapV, hf]
  | node d l r =>
    simp only [visit, mapT_node, isRed_mapT]
    split <;> simp

theorem fix_map (f : V → W) (ctx : List (Frame K V)) (n : RTree K V) :
    fix (ctx.map (Frame.mapV f)) (mapT f n) = (fix ctx n).map fun x => (x.1.map (Frame.mapV f), mapT f x.2) := by
  unfold fix
  simp only [isRed_mapT, parentRed_map]
  split
  · cases ctx with
    | nil => simp
    | cons P ctx =>
      cases ctx with
      | nil => simp
      | cons G rest =>
        cases n with
        | nil => simp
        | node nd nl nr =>
          simp only [List.map_cons, mapT_node, Frame.mapV_dir]
          by_cases h : P.dir = G.dir
          · simp only [h, if_true]; simp [Frame.mapV, h]
          · simp only [h, if_false, Option.map_some, mapT_mk2, mapV_col, Frame.mapV_d, Frame.mapV_sib, ← mapT_node, mapT_child]
  · rfl

theorem insLoop_map [Inhabited V] [Inhabited W] {f : V → W} (hf : f default = default) (cmp : K → K → Int) (key : K) (value : V) (fuel : Nat) (ctx : List (Frame K V)) (t : RTree K V) :
    insLoop cmp key (f value) fuel (ctx.map (Frame.mapV f)) (mapT f t) = (insLoop cmp key value fuel ctx t).map (mapT f) := by
  induction fuel generalizing ctx t with
  | zero => rfl
  | succ fuel ih =>
    unfold insLoop
    rw [visit_map hf, fix_map]
    cases fix ctx (visit key t) with
    | none => rfl
    | some x =>
      obtain ⟨ctx', n⟩ := x
      cases n with
      | nil => rfl
      | node d l r =>
        simp only [Option.map_some, mapT_node, mapV_key]
        by_cases h : cmp d.key key = 0
        · have := plug_map f (.node { d with value := value } l r) ctx'
          simp only [h, if_true, Option.map_some, ← this]; rfl
        · simp only [h, if_false]
          by_cases h2 : cmp d.key key < 0
          · simp only [h2, if_true]
            exact ih ({ d := d, dir := true, sib := l } :: ctx') r
          · simp only [h2, if_false]
            exact ih ({ d := d, dir := false, sib := r } :: ctx') l

theorem insert_map [Inhabited V] [Inhabited W] {f : V → W} (hf : f default = default) (cmp : K → K → Int) (t : RTree K V) (key : K) (value : V) :
    insert cmp (mapT f t) key (f value) = (insert cmp t key value).map (mapT f) := by
  cases t with
  | nil => rfl
  | node d l r =>
    have := insLoop_map hf cmp key value (2 * (BTree.node d l r).height + 2) [] (.node d l r)
    rw [← height_mapT f] at this
    simp only [List.map_nil, mapT_node] at this
    simp only [insert, mapT_node, this]
    rw [← mapT_node, height_mapT]
    cases insLoop cmp key value (2 * (BTree.node d l r).height + 2) [] (.node d l r) <;> simp

theorem get_map (f : V → W) (cmp : K → K → Int) (t : RTree K V) (key : K) : get cmp (mapT f t) key = (get cmp t key).map f := by
  induction t with
  | nil => rfl
  | node d l r ihl ihr =>
    simp only [get, mapT_node, mapV_key]
    by_cases h : cmp d.key key = 0
    · simp only [h, if_true]; rfl
    · by_cases h2 : cmp d.key key < 0
      · simp only [h, h2, if_true, if_false]; exact ihr
      · simp only [h, h2, if_false]; exact ihl

theorem enumerate_map (f : V → W) (t : RTree K V) : enumerate (mapT f t) = (enumerate t).map fun p => (p.1, f p.2) := by
  induction t with
  | nil => rfl
  | node d l r ihl ihr => simp [enumerate, ihl, ihr]

theorem delSingle_map (f : V → W) (P F : Frame K V) (rest : List (Frame K V)) (sd : RD K V) (s : RTree K V) :
    delFix.single (P.mapV f) (F.mapV f) (rest.map (Frame.mapV f)) (sd.mapV f) (mapT f s) = (delFix.single P F rest sd s).map (Frame.mapV f) := by
  simp [delFix.single, Frame.mapV]

theorem delSib_map (f : V → W) (ctx : List (Frame K V)) (F : Frame K V) :
    delFix.delSib (ctx.map (Frame.mapV f)) (F.mapV f) = (delFix.delSib ctx F).map (Frame.mapV f) := by
  unfold delFix.delSib
  cases ctx with
  | nil => rfl
  | cons P rest =>
    obtain ⟨Pd, Pdir, Psib, Pt⟩ := P
    cases Psib with
    | nil => rfl
    | node sd sl sr =>
      simp only [List.map_cons, Frame.mapV_sib, mapT_node, isRed_mapT]
      split
      · simp [Frame.mapV]
      · simp only [← mapT_node, mapT_child, Frame.mapV_dir]
        cases hx : (BTree.node sd sl sr).child Pdir with
        | nil => exact delSingle_map f _ _ _ _ _
        | node xd xl xr =>
          simp only [mapT_node, mapV_red]
          by_cases h : xd.red = true
          · simp only [h, if_true, ← mapT_node, mapT_child, List.map_cons]
            simp [Frame.mapV]
          · simp only [h, if_false, Bool.false_eq_true]
            exact delSingle_map f _ _ _ _ (.node sd sl sr)

theorem delFix_map (f : V → W) (ctx : List (Frame K V)) (F : Frame K V) (x : RTree K V) :
    delFix (ctx.map (Frame.mapV f)) (F.mapV f) (mapT f x) = (delFix ctx F x).map (Frame.mapV f) := by
  unfold delFix
  obtain ⟨Fd, Fdir, Fsib, Ft⟩ := F
  simp only [isRed_mapT, Frame.mapV_d, mapV_red]
  split
  · cases Fsib with
    | nil => exact delSib_map f _ _
    | node yd yl yr =>
      simp only [Frame.mapV_sib, mapT_node, mapV_red]
      by_cases h : yd.red = true
      · simp only [h, if_true, ← mapT_node, mapT_child, List.map_cons]
        simp [Frame.mapV]
      · simp only [h, if_false, Bool.false_eq_true]
        exact delSib_map f _ _
  · rfl

theorem setTgt_map (f : V → W) (key : K) (value : V) (ctx : List (Frame K V)) :
    setTgt key (f value) (ctx.map (Frame.mapV f)) = (setTgt key value ctx).map (Frame.mapV f) := by
  induction ctx with
  | nil => rfl
  | cons F ctx ih =>
    simp only [List.map_cons, setTgt, Frame.mapV_tgt]
    by_cases h : F.tgt = true
    · simp only [h, if_true]; rfl
    · simp only [h, if_false, Bool.false_eq_true, List.map_cons, ih]

theorem delEnd_map (f : V → W) (ctx : List (Frame K V)) : delEnd (ctx.map (Frame.mapV f)) = (mapT f (delEnd ctx).1, (delEnd ctx).2) := by
  cases ctx with
  | nil => rfl
  | cons F rest =>
    have e : (rest.map (Frame.mapV f)).any (·.tgt) = rest.any (·.tgt) := by simp [Function.comp_def]
    simp only [List.map_cons, delEnd, Frame.mapV_tgt, e]
    split
    · simp [plug_map]
    · split
      · simp only [Frame.mapV_d, mapV_key, mapV_value, Frame.mapV_sib, setTgt_map, plug_map]
      · simp only [Frame.mapV_d, Frame.mapV_sib, Frame.mapV_dir]
        rw [← plug_map]; simp

theorem delLoop_map (f : V → W) (cmp : K → K → Int) (key : K) (ctx : List (Frame K V)) (t : RTree K V) :
    delLoop cmp key (ctx.map (Frame.mapV f)) (mapT f t) = (mapT f (delLoop cmp key ctx t).1, (delLoop cmp key ctx t).2) := by
  induction t generalizing ctx with
  | nil => exact delEnd_map f ctx
  | node d l r ihl ihr =>
    simp only [mapT_node, delLoop, mapV_key]
    by_cases h : cmp d.key key < 0
    · simp only [h, if_true]; rw [← ihr, ← delFix_map]; rfl
    · simp only [h, if_false]; rw [← ihl, ← delFix_map]; rfl

theorem del_map (f : V → W) (cmp : K → K → Int) (t : RTree K V) (key : K) : del cmp (mapT f t) key = (mapT f (del cmp t key).1, (del cmp t key).2) := by
  have := delLoop_map f cmp key [] t
  simp only [List.map_nil] at this
  simp [del, this]

end Verif.RB
