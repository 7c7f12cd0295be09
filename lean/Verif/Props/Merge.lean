import Verif.Core.Merge
import Verif.RB.Merge
import Verif.Props.Numtree
import Verif.Props.Strtree
import Verif.Props.Dltree
import Verif.Props.Parsing
import Verif.Props.Domaintree
import Verif.Props.Iptree
import Verif.Props.UIptree
import Verif.IP.UHistory

/-!
# C79: merging one tree into another through its listing

The loop `for e := range src.Enumerate() { dst = dst.Insert(e.Key, e.Value) }`, for the entries in any order.  Histories
have the newest call first, so the calls of the loop stand reversed before the calls that made `dst`.
-/

namespace Verif.Props
open Verif.Merge

section Num
open Verif.Num
variable {w : Nat} [LawfulKeySize w] {V : Type} [Inhabited V]

/-- The listing of a numtree: significant bits and values. -/
def numListing (t : NTree w V) : List (List Bool × V) := (Num.Enumerate t).map fun n => (Verif.sig n.key n.bits, n.value)

theorem numListing_run (ops : List (NumOp w V)) : Listing (· = ·) (numListing (Num.run ops)) (lastWrite (ops.map NumOp.abs)) where
  sound x hx := by
    obtain ⟨n, hn, rfl⟩ := List.mem_map.1 hx
    exact ⟨_, rfl, (C04_enumerate_complete ops _ _).2 ⟨n, hn, rfl, rfl⟩⟩
  complete q v h := by
    obtain ⟨n, hn, h1, h2⟩ := (C04_enumerate_complete ops q v).1 h
    exact ⟨_, List.mem_map.2 ⟨n, hn, rfl⟩, h1, h2⟩

/-- The calls of the loop over the entries `l`. -/
def numLoop (l : List (ND w V)) : List (NumOp w V) := (l.map fun n => .insert n.key n.bits n.value).reverse

theorem numLoop_map (ops1 ops2 : List (NumOp w V)) {l : List (ND w V)} (hl : l.Perm (Num.Enumerate (Num.run ops2))) (q : List Bool) :
    lastWrite ((numLoop l ++ ops1).map NumOp.abs) q = (lastWrite (ops2.map NumOp.abs) q).or (lastWrite (ops1.map NumOp.abs) q) := by
  have hb : ∀ n ∈ l, n.bits ≤ w := fun n hn => ((run_wf ops2).1.enumerate_prop n (hl.mem_iff.1 hn)).2.1
  have e : ∀ l : List (ND w V), (∀ n ∈ l, n.bits ≤ w) →
      lastWrite ((l.map (fun n => NumOp.insert n.key n.bits n.value) ++ ops1).map NumOp.abs) q =
      storeAll (lastWrite (ops1.map NumOp.abs)) (l.map fun n => (Verif.sig n.key n.bits, n.value)) q := by
    intro l hb
    induction l with
    | nil => rfl
    | cons n l ih =>
      have hc : clampSpec w (n.bits : Int) = n.bits := by
        have := hb n (by simp); unfold clampSpec; rw [if_neg (by omega), if_neg (by omega)]; simp
      simp only [List.map_cons, List.cons_append, NumOp.abs, lastWrite, storeAll, hc]
      rw [ih fun n hn => hb n (by simp [hn])]
  unfold numLoop
  rw [← List.map_reverse, e _ fun n hn => hb n (by simpa using hn)]
  refine storeAll_or (fun q v => ?_) q
  rw [← (numListing_run ops2).mem (by rintro _ _ _ rfl rfl; rfl) (by rintro _ _ _ rfl rfl; rfl) rfl]
  unfold numListing
  exact ((l.reverse_perm.trans hl).map _).mem_iff

/-- C79, numtree: the merged tree lists the entries of the source and the entries the destination had under other
prefixes, and `ExactMatch` agrees. -/
theorem C79_numtree (ops1 ops2 : List (NumOp w V)) {l : List (ND w V)} (hl : l.Perm (Num.Enumerate (Num.run ops2))) :
    Overlay (numListing (Num.run ops1)) (numListing (Num.run ops2)) (numListing (Num.run (numLoop l ++ ops1))) ∧
    (∀ (k : BitVec w) (bits : Int), ExactMatch (Num.run (numLoop l ++ ops1)) k bits =
      (ExactMatch (Num.run ops2) k bits).or (ExactMatch (Num.run ops1) k bits)) := by
  refine ⟨overlay (by rintro _ _ _ rfl rfl; rfl) (by rintro _ _ _ rfl rfl; rfl) (numListing_run ops1) (numListing_run ops2)
    (numListing_run _) (numLoop_map ops1 ops2 hl), fun k bits => ?_⟩
  rw [C01_map, C01_map, C01_map, numLoop_map ops1 ops2 hl]

/-- C79, numtree: copying into an empty tree gives a tree of the same shape and contents. -/
theorem C79_numtree_copy (ops : List (NumOp w V)) {l : List (ND w V)} (hl : l.Perm (Num.Enumerate (Num.run ops))) :
    canon (Num.run (numLoop l)) = canon (Num.run ops) := by
  have := (C79_numtree ([] : List (NumOp w V)) ops hl).2
  rw [List.append_nil] at this
  refine C09_canonical _ _ fun k bits => ?_
  rw [this]
  have h0 : ExactMatch (Num.run ([] : List (NumOp w V))) k bits = none := by rw [C01_map]; rfl
  rw [h0, Option.or_none]

/-- `10.1/16` is in both trees, the listing is copied backwards. -/
example : numListing (Num.run (numLoop (Num.Enumerate (Num.run sample32)).reverse ++
      ([.insert 0x0A010000#32 16 70, .insert 0x0A800000#32 9 71, .insert 0xC0000000#32 31 72] : List (NumOp 32 Nat)))) =
    numListing (Num.run ([.insert 0x0A010000#32 16 7, .insert 0x0A800000#32 9 71, .insert 0xC0000000#32 31 72,
      .insert 0xC0000000#32 32 4, .insert 0x0A000000#32 8 3] : List (NumOp 32 Nat))) := by decide +kernel

/-- Copied backwards into an empty tree. -/
example : canon (Num.run (numLoop (Num.Enumerate (Num.run sample32)).reverse)) = canon (Num.run sample32) ∧
    (Num.Enumerate (Num.run sample32)).length = 3 := by decide +kernel

end Num

section Str
open Verif.Strtree
variable {V : Type} [Inhabited V]

/-- The calls of the loop over the entries `l`. -/
def strLoop {K : Type} (l : List (K × V)) : List (KOp K V) := (l.map fun e => .insert e.1 e.2).reverse

/-- C79, strtree: keys both trees have keep the spelling of the destination and get the value of the source.  Both trees
have the same comparison. -/
theorem C79_strtree {cmp : Bytes → Bytes → Int} (hc : LawfulCmp cmp) {t0 t0' : Option (Strtree.Tree V)} (h0 : Start cmp t0) (h0' : Start cmp t0')
    (ops1 ops2 : List (KOp Bytes V)) : ∃ t1 t2, Strtree.run t0 ops1 = some t1 ∧ Strtree.run t0' ops2 = some t2 ∧
      ∀ l : List (Bytes × V), l.Perm (Strtree.Enumerate t2) → ∃ t, Strtree.run t0 (strLoop l ++ ops1) = some t ∧
        OverlayBy cmp (Strtree.Enumerate t1) (Strtree.Enumerate t2) (Strtree.Enumerate t) ∧
        (∀ q, Strtree.Get t q = (Strtree.Get t2 q).or (Strtree.Get t1 q)) ∧ (ops1 = [] → Strtree.Enumerate t = Strtree.Enumerate t2) := by
  obtain ⟨t1, r1, a1, a2, a3, _⟩ := run_like h0.like hc.refl ops1
  obtain ⟨t2, r2, b1, b2, b3, _⟩ := run_like h0'.like hc.refl ops2
  refine ⟨t1, t2, a1, b1, fun l hl => ?_⟩
  obtain ⟨t, r, c1, c2, c3, _⟩ := run_like h0.like hc.refl (strLoop l ++ ops1)
  rw [(like_ops b3).2.1] at hl
  have c2' := c2
  unfold strLoop at c2'
  rw [← List.map_reverse] at c2'
  have ov := RB.merge_overlay hc a2 b2 (l.reverse_perm.trans hl) c2'
  refine ⟨t, c1, by rw [(like_ops a3).2.1, (like_ops b3).2.1, (like_ops c3).2.1]; exact ov, fun q => ?_, ?_⟩
  · rw [(like_ops c3).1, (like_ops b3).1, (like_ops a3).1]
    rw [RB.get_run hc c2', RB.get_run hc a2, RB.get_run hc b2, RB.merge_get hc ops1 b2 (l.reverse_perm.trans hl)]
  · rintro rfl
    cases a2
    rw [(like_ops b3).2.1, (like_ops c3).2.1]
    refine sorted_unique (R := fun a b : Bytes × V => cmp a.1 b.1 < 0) (fun a b h1 h2 => ?_) (RB.run_spec hc c2).1 (RB.run_spec hc b2).1 fun x => ?_
    · have := hc.swap a.1 b.1; omega
    · rw [ov x]; simp [RB.enumerate]

/-- `[1]` and `[8]` are equal keys for an ordering by length; the destination has spelled it `[1]`. -/
example : (Strtree.run (NewTreeWithCustomComparison byLen) (strLoop [([8], 3), ([7, 7, 7], 4)] ++ [.insert [1, 2] 6, .insert [1] (5 : Nat)])).map
    Strtree.Enumerate = some [([1], 3), ([1, 2], 6), ([7, 7, 7], 4)] := by decide +kernel

end Str

section DL
open Verif.DL
variable {V : Type} [Inhabited V]

omit [Inhabited V] in
theorem storeAll_kop (ops : List (KOp Bytes V)) (l : List (Bytes × V)) (q : Bytes) :
    lastWrite' (l.map (fun e => .insert e.1 e.2) ++ ops) q = storeAll (lastWrite' ops) l q := by
  induction l with
  | nil => rfl
  | cons e l ih =>
    simp only [List.map_cons, List.cons_append, lastWrite', storeAll, ih]
    by_cases h : e.1 = q
    · rw [if_pos h, if_pos h.symm]
    · rw [if_neg h, if_neg (Ne.symm h)]

/-- Inserting all entries of a tree by calls of either kind. -/
theorem dl_merge {t0 t0' : Option (DL.Tree V)} (h0 : t0 = none ∨ t0 = DL.NewTree) (h0' : t0' = none ∨ t0' = DL.NewTree)
    (ops1 ops2 : List (DL.Op V × KOp Bytes V)) (h1 : ∀ p ∈ ops1, OpMeans p.1 p.2) (h2 : ∀ p ∈ ops2, OpMeans p.1 p.2) :
    ∃ t1 t2, DL.run t0 (ops1.map Prod.fst) = some t1 ∧ DL.run t0' (ops2.map Prod.fst) = some t2 ∧
      ∀ c : List (DL.Op V × Bytes × V), (∀ p ∈ c, OpMeans p.1 (.insert p.2.1 p.2.2)) → (c.map Prod.snd).Perm (RawEnumerate t2) →
        ∃ t, DL.run t0 ((c.map Prod.fst).reverse ++ ops1.map Prod.fst) = some t ∧
          Overlay (RawEnumerate t1) (RawEnumerate t2) (RawEnumerate t) ∧ (ops1 = [] → RawEnumerate t = RawEnumerate t2) := by
  obtain ⟨t1, a1, a2⟩ := C27_complete h0 ops1 h1
  obtain ⟨t2, b1, b2⟩ := C27_complete h0' ops2 h2
  refine ⟨t1, t2, a1, b1, fun c hc hl => ?_⟩
  have hm : ∀ p ∈ (c.map fun p => (p.1, KOp.insert p.2.1 p.2.2)).reverse ++ ops1, OpMeans p.1 p.2 := by
    intro p hp
    rcases List.mem_append.1 hp with hp | hp
    · obtain ⟨e, he, rfl⟩ := List.mem_map.1 (List.mem_reverse.1 hp)
      exact hc e he
    · exact h1 p hp
  have ef : ((c.map fun p => (p.1, KOp.insert p.2.1 p.2.2)).reverse ++ ops1).map Prod.fst =
      (c.map Prod.fst).reverse ++ ops1.map Prod.fst := by
    rw [List.map_append, List.map_reverse, List.map_map]; rfl
  obtain ⟨t, c1, c2⟩ := C27_complete h0 _ hm
  obtain ⟨t', d1, d2⟩ := C27_raw_sorted h0 _ hm
  obtain ⟨t2', e1, e2⟩ := C27_raw_sorted h0' _ h2
  rw [c1] at d1; cases d1
  rw [b1] at e1; cases e1
  rw [ef] at c1
  have hlist : ∀ {t : Option (DL.Tree V)} {ops : List (KOp Bytes V)}, (∀ l v, (l, v) ∈ RawEnumerate t ↔ lastWrite' ops l = some v) →
      Listing (· = ·) (RawEnumerate t) (lastWrite' ops) := fun h =>
    ⟨fun x hx => ⟨x.1, rfl, (h x.1 x.2).1 hx⟩, fun q v hq => ⟨(q, v), (h q v).2 hq, rfl, rfl⟩⟩
  have ov : Overlay (RawEnumerate t1) (RawEnumerate t2) (RawEnumerate t) := by
    refine overlay (by rintro _ _ _ rfl rfl; rfl) (by rintro _ _ _ rfl rfl; rfl) (hlist a2) (hlist b2) (hlist c2) fun q => ?_
    rw [List.map_append, List.map_reverse, List.map_map,
      show (c.map (Prod.snd ∘ fun p => (p.1, KOp.insert p.2.1 p.2.2))) = (c.map Prod.snd).map (fun e => KOp.insert e.1 e.2) from by
        rw [List.map_map]; rfl,
      ← List.map_reverse, storeAll_kop]
    refine storeAll_or (fun q v => ?_) q
    rw [((List.reverse_perm _).trans hl).mem_iff]
    exact b2 q v
  refine ⟨t, c1, ov, ?_⟩
  rintro rfl
  refine sorted_unique (R := fun a b : Bytes × V => a.1.length < b.1.length ∨ (a.1.length = b.1.length ∧ a.1 < b.1)) ?_ d2 e2 fun x => ?_
  · rintro a b (h | ⟨h, h'⟩) (g | ⟨g, g'⟩)
    · omega
    · omega
    · omega
    · exact List.lt_irrefl _ (List.lt_trans h' g')
  · rw [ov x]
    have : ∀ x, x ∉ RawEnumerate t1 := fun x hx => by have := (a2 x.1 x.2).1 hx; cases this
    simp [this]

/-- C79, dltree: merging with `RawEnumerate` and `RawInsert`. -/
theorem C79_dltree_raw {t0 t0' : Option (DL.Tree V)} (h0 : t0 = none ∨ t0 = DL.NewTree) (h0' : t0' = none ∨ t0' = DL.NewTree)
    (ops1 ops2 : List (DL.Op V × KOp Bytes V)) (h1 : ∀ p ∈ ops1, OpMeans p.1 p.2) (h2 : ∀ p ∈ ops2, OpMeans p.1 p.2) :
    ∃ t1 t2, DL.run t0 (ops1.map Prod.fst) = some t1 ∧ DL.run t0' (ops2.map Prod.fst) = some t2 ∧
      ∀ l : List (Bytes × V), l.Perm (RawEnumerate t2) →
        ∃ t, DL.run t0 ((l.map fun e => .rawInsert e.1 e.2).reverse ++ ops1.map Prod.fst) = some t ∧
          Overlay (RawEnumerate t1) (RawEnumerate t2) (RawEnumerate t) ∧ (ops1 = [] → RawEnumerate t = RawEnumerate t2) := by
  obtain ⟨t1, t2, a1, b1, h⟩ := dl_merge h0 h0' ops1 ops2 h1 h2
  refine ⟨t1, t2, a1, b1, fun l hl => ?_⟩
  have := h (l.map fun e => (.rawInsert e.1 e.2, e)) (by
    intro p hp; obtain ⟨e, _, rfl⟩ := List.mem_map.1 hp; exact .rawInsert) (by rw [List.map_map]; simpa [Function.comp_def] using hl)
  rwa [List.map_map] at this

/-- C79, dltree: merging with `Enumerate` and `Insert`, for a source with labels of up to 63 upper-case bytes, as `Insert`
stores them. -/
theorem C79_dltree {t0 t0' : Option (DL.Tree V)} (h0 : t0 = none ∨ t0 = DL.NewTree) (h0' : t0' = none ∨ t0' = DL.NewTree)
    (ops1 ops2 : List (DL.Op V × KOp Bytes V)) (h1 : ∀ p ∈ ops1, OpMeans p.1 p.2) (h2 : ∀ p ∈ ops2, OpMeans p.1 p.2) :
    ∃ t1 t2, DL.run t0 (ops1.map Prod.fst) = some t1 ∧ DL.run t0' (ops2.map Prod.fst) = some t2 ∧
      ((∀ p ∈ RawEnumerate t2, p.1.length ≤ 63 ∧ p.1.map DomainText.toUpper = p.1) → ∃ xs, DL.Enumerate t2 = some xs ∧
        ∀ l : List (Bytes × V), l.Perm xs →
          ∃ t, DL.run t0 ((l.map fun e => .insert e.1 e.2).reverse ++ ops1.map Prod.fst) = some t ∧
            Overlay (RawEnumerate t1) (RawEnumerate t2) (RawEnumerate t) ∧ (ops1 = [] → RawEnumerate t = RawEnumerate t2)) := by
  obtain ⟨t1, t2, a1, b1, h⟩ := dl_merge h0 h0' ops1 ops2 h1 h2
  refine ⟨t1, t2, a1, b1, fun hs => ?_⟩
  obtain ⟨t2', b2, hh⟩ := C27_human h0' ops2 h2
  rw [b1] at b2; cases b2
  obtain ⟨xs, e1, e2, _, e4⟩ := hh fun p hp => (hs p hp).1
  refine ⟨xs, e1, fun l hl => ?_⟩
  have hraw : (RawEnumerate t2).map (fun p => Domain.Res.ok (p.1.map DomainText.toUpper)) = (RawEnumerate t2).map (fun p => Domain.Res.ok p.1) :=
    List.map_congr_left fun p hp => by rw [(hs p hp).2]
  rw [hraw] at e4
  have lab : ∀ x : Bytes × V, x ∈ xs → ∃ k, Domain.MakeLabel x.1 = .ok k := by
    intro x hx
    have : Domain.MakeLabel x.1 ∈ xs.map (fun p => Domain.MakeLabel p.1) := List.mem_map.2 ⟨x, hx, rfl⟩
    rw [e4] at this
    obtain ⟨p, _, hp⟩ := List.mem_map.1 this
    exact ⟨p.1, hp.symm⟩
  let key : Bytes → Bytes := fun s => match Domain.MakeLabel s with | .ok k => k | _ => []
  have hkey : xs.map (fun x => (key x.1, x.2)) = RawEnumerate t2 := by
    have g : ∀ (xs ys : List (Bytes × V)), xs.map Prod.snd = ys.map Prod.snd →
        xs.map (fun p => Domain.MakeLabel p.1) = ys.map (fun p => Domain.Res.ok p.1) → xs.map (fun x => (key x.1, x.2)) = ys := by
      intro xs
      induction xs with
      | nil => intro ys h _; cases ys with | nil => rfl | cons => cases h
      | cons x xs ih =>
        intro ys h h'
        cases ys with
        | nil => cases h
        | cons y ys =>
          simp only [List.map_cons, List.cons.injEq] at h h' ⊢
          refine ⟨?_, ih ys h.2 h'.2⟩
          simp only [key, h'.1, h.1]
    exact g xs _ e2 e4
  have := h (l.map fun e => (.insert e.1 e.2, (key e.1, e.2))) (by
    intro p hp; obtain ⟨e, he, rfl⟩ := List.mem_map.1 hp
    obtain ⟨k, hk⟩ := lab e (hl.mem_iff.1 he)
    refine .insert ((C66_accepts _ _).1 ?_)
    simp only [key, hk]) (by
      rw [List.map_map, ← hkey]; exact hl.map _)
  rwa [List.map_map] at this

/-- Raw labels of any bytes and length, among them lower-case ones, are copied as they are. -/
example : ((DL.run (V := Nat) none [.rawInsert [97] 1, .rawInsert (List.replicate 70 0) 2]).map RawEnumerate).bind (fun l =>
    (DL.run none ((l.map fun e => .rawInsert e.1 e.2).reverse ++ [.insert [97] 7])).map RawEnumerate) =
    some [([65], 7), ([97], 1), (List.replicate 70 0, 2)] := by decide +kernel

/-- The condition on the case is needed: a raw lower-case label comes out of the text form in upper case and hits another
entry. -/
example : ((DL.run (V := Nat) none [.rawInsert [97] 1]).bind DL.Enumerate).bind (fun l =>
    (DL.run none ((l.map fun e => .insert e.1 e.2).reverse ++ [.insert [97] 7])).map RawEnumerate) = some [([65], 1)] := by decide +kernel

/-- Escaped bytes survive the way through the text form; the label `A` is in both trees. -/
example : ((DL.run (V := Nat) none [.insert [97] 1, .insert [92, 46, 98] 2]).bind DL.Enumerate).bind (fun l =>
    (DL.run none ((l.map fun e => .insert e.1 e.2).reverse ++ [.insert [65] 7, .insert [99] 8])).map RawEnumerate) =
    some [([65], 1), ([67], 8), ([46, 66], 2)] := by decide +kernel

end DL

section IP
open Verif.IP
variable {V : Type} [Inhabited V]

/-- The canonical network of a family and significant bits. -/
def CanonKey (n : IPNet) (q : Fam × List Bool) : Prop := IsCanonNet n q.1 q.2

theorem canonKey_fun (k : IPNet) (q q' : Fam × List Bool) (h : CanonKey k q) (h' : CanonKey k q') : q = q' :=
  Prod.ext (IsNet.unique h.1 h'.1).1 (IsNet.unique h.1 h'.1).2

theorem canonKey_inj (k k' : IPNet) (q : Fam × List Bool) (h : CanonKey k q) (h' : CanonKey k' q) : k = k' := canon_inj h h'

theorem netBefore_asymm (a b : IPNet) (h : NetBefore a b) : ¬ NetBefore b a := by
  unfold NetBefore at *; omega

omit [Inhabited V] in
/-- Networks read back from a listing with their meaning. -/
theorem copied_nets {l l2 : List (IPNet × V)} {m2 : Fam × List Bool → Option V} (h2 : Listing CanonKey l2 m2) (hl : l.Perm l2) :
    ∃ c : List (IP.Op V × (Fam × List Bool) × V), c.map Prod.fst = l.map (fun e => IP.Op.insertNet (some e.1) e.2) ∧
      (∀ p ∈ c, OpNet p.1 (some (p.2.1.1, .insert p.2.1.2 p.2.2))) ∧ ∀ q v, (q, v) ∈ c.map Prod.snd ↔ m2 q = some v := by
  have hm : ∀ l : List (IPNet × V), (∀ x ∈ l, x ∈ l2) →
      ∃ c : List (IP.Op V × (Fam × List Bool) × V), c.map Prod.fst = l.map (fun e => IP.Op.insertNet (some e.1) e.2) ∧
        (∀ p ∈ c, OpNet p.1 (some (p.2.1.1, .insert p.2.1.2 p.2.2))) ∧
        ∀ q v, (q, v) ∈ c.map Prod.snd ↔ ∃ k, CanonKey k q ∧ (k, v) ∈ l := by
    intro l hl
    induction l with
    | nil => exact ⟨[], rfl, by simp, by simp⟩
    | cons x l ih =>
      obtain ⟨c, c1, c2, c3⟩ := ih fun y hy => hl y (by simp [hy])
      obtain ⟨q, hq, hv⟩ := h2.sound x (hl x (by simp))
      refine ⟨(.insertNet (some x.1) x.2, q, x.2) :: c, by simp [c1], ?_, ?_⟩
      · intro p hp
        rcases List.mem_cons.1 hp with rfl | hp
        · exact .insertNet hq.1
        · exact c2 p hp
      · intro q' v'
        simp only [List.map_cons, List.mem_cons, c3]
        constructor
        · rintro (h | ⟨k, h, h'⟩)
          · cases h; exact ⟨x.1, hq, .inl rfl⟩
          · exact ⟨k, h, .inr h'⟩
        · rintro ⟨k, h, rfl | h'⟩
          · exact .inl (by rw [canonKey_fun _ _ _ h hq])
          · exact .inr ⟨k, h, h'⟩
  obtain ⟨c, c1, c2, c3⟩ := hm l fun x hx => hl.mem_iff.1 hx
  refine ⟨c, c1, c2, fun q v => ?_⟩
  rw [c3]
  constructor
  · rintro ⟨k, hk, h⟩
    exact (h2.mem canonKey_fun canonKey_inj hk v).1 (hl.mem_iff.1 h)
  · intro h
    obtain ⟨x, hx, hk, rfl⟩ := h2.complete q v h
    exact ⟨x.1, hk, hl.mem_iff.2 hx⟩

/-- The calls of the loop with their meaning, in front of the calls `ops`. -/
def netCalls (c : List (IP.Op V × (Fam × List Bool) × V)) (ops : List (IP.Op V × Option (Fam × POp V))) : List (IP.Op V × Option (Fam × POp V)) :=
  c.map (fun p => (p.1, some (p.2.1.1, .insert p.2.1.2 p.2.2))) ++ ops

omit [Inhabited V] in
theorem netCalls_means {c : List (IP.Op V × (Fam × List Bool) × V)} {ops : List (IP.Op V × Option (Fam × POp V))}
    (hc : ∀ p ∈ c, OpNet p.1 (some (p.2.1.1, .insert p.2.1.2 p.2.2))) (h : ∀ p ∈ ops, OpNet p.1 p.2) : ∀ p ∈ netCalls c ops, OpNet p.1 p.2 := by
  intro p hp
  rcases List.mem_append.1 hp with hp | hp
  · obtain ⟨e, he, rfl⟩ := List.mem_map.1 hp; exact hc e he
  · exact h p hp

omit [Inhabited V] in
theorem netCalls_map (c : List (IP.Op V × (Fam × List Bool) × V)) (ops : List (IP.Op V × Option (Fam × POp V))) (q : Fam × List Bool) :
    lastNet ((netCalls c ops).filterMap Prod.snd) q.1 q.2 =
      storeAll (fun q : Fam × List Bool => lastNet (ops.filterMap Prod.snd) q.1 q.2) (c.map Prod.snd) q := by
  induction c with
  | nil => rfl
  | cons p c ih =>
    obtain ⟨op, ⟨f, r⟩, v⟩ := p
    obtain ⟨g, s⟩ := q
    simp only [netCalls, List.map_cons, List.cons_append, List.filterMap_cons, storeAll, Prod.mk.injEq]
    rw [← ih]
    unfold netCalls lastNet
    by_cases hf : f = g
    · subst hf; simp [lastWrite]
    · simp [hf, Ne.symm hf]

omit [Inhabited V] in
theorem uCalls_map (c : List (IP.Op V × (Fam × List Bool) × V)) (ops : List (IP.Op V × Option (Fam × POp V))) (q : Fam × List Bool) :
    UIP.uRun ((netCalls c ops).filterMap Prod.snd) q.1 q.2 =
      storeAll (fun q : Fam × List Bool => UIP.uRun (ops.filterMap Prod.snd) q.1 q.2) (c.map Prod.snd) q := by
  induction c with
  | nil => rfl
  | cons p c ih =>
    obtain ⟨op, ⟨f, r⟩, v⟩ := p
    obtain ⟨g, s⟩ := q
    simp only [netCalls, List.map_cons, List.cons_append, List.filterMap_cons, storeAll, Prod.mk.injEq, UIP.uRun, UIP.uStep]
    rw [← ih]
    rfl

/-- C79, iptree. -/
theorem C79_iptree {t0 t0' : Option (IP.Tree V)} (h0 : IP.EmptyT t0) (h0' : IP.EmptyT t0') (ops1 ops2 : List (IP.Op V × Option (Fam × POp V)))
    (h1 : ∀ p ∈ ops1, OpNet p.1 p.2) (h2 : ∀ p ∈ ops2, OpNet p.1 p.2) :
    ∃ t1 t2, IP.run t0 (ops1.map Prod.fst) = some t1 ∧ IP.run t0' (ops2.map Prod.fst) = some t2 ∧
      ∀ l : List (IPNet × V), l.Perm (IP.Enumerate t2) →
        ∃ t, IP.run t0 ((l.map fun e => .insertNet (some e.1) e.2).reverse ++ ops1.map Prod.fst) = some t ∧
          Overlay (IP.Enumerate t1) (IP.Enumerate t2) (IP.Enumerate t) ∧ (ops1 = [] → IP.Enumerate t = IP.Enumerate t2) := by
  have hL : ∀ {t0 : Option (IP.Tree V)}, IP.EmptyT t0 → ∀ ops : List (IP.Op V × Option (Fam × POp V)), (∀ p ∈ ops, OpNet p.1 p.2) →
      ∃ t, IP.run t0 (ops.map Prod.fst) = some t ∧
        Listing CanonKey (IP.Enumerate t) (fun q : Fam × List Bool => lastNet (ops.filterMap Prod.snd) q.1 q.2) := by
    intro t0 h0 ops h
    obtain ⟨t, e1, e2, e3⟩ := C39_enumerate_sound h0 ops h
    exact ⟨t, e1, fun x hx => let ⟨f, p, g1, g2⟩ := e2 x hx; ⟨(f, p), g1, g2⟩, fun q v hq => e3 q.1 q.2 v hq⟩
  obtain ⟨t1, a1, a2⟩ := hL h0 ops1 h1
  obtain ⟨t2, b1, b2⟩ := hL h0' ops2 h2
  refine ⟨t1, t2, a1, b1, fun l hl => ?_⟩
  obtain ⟨c, c1, c2, c3⟩ := copied_nets b2 (l.reverse_perm.trans hl)
  have ef : (netCalls c ops1).map Prod.fst = (l.map fun e => .insertNet (some e.1) e.2).reverse ++ ops1.map Prod.fst := by
    rw [← List.map_reverse, ← c1]; simp [netCalls, Function.comp_def]
  have hm := netCalls_means c2 h1
  obtain ⟨t, d1, d2⟩ := hL h0 _ hm
  obtain ⟨t', s1, s2⟩ := C39_enumerate_sorted h0 _ hm
  obtain ⟨t2', s3, s4⟩ := C39_enumerate_sorted h0' _ h2
  rw [d1] at s1; cases s1
  rw [b1] at s3; cases s3
  have ov := overlay canonKey_fun canonKey_inj a2 b2 d2 fun q => by
    rw [netCalls_map]; exact storeAll_or c3 q
  refine ⟨t, by rw [← ef]; exact d1, ov, ?_⟩
  rintro rfl
  refine sorted_unique (fun a b => netBefore_asymm a.1 b.1) s2 s4 fun x => ?_
  rw [ov x]
  have : ∀ x, x ∉ IP.Enumerate t1 := fun x hx => by obtain ⟨q, _, h⟩ := a2.sound x hx; cases h
  simp [this]

/-- C79, the generated trees (`iptree8`, `iptree16`, `iptree32`, `iptree64`). -/
theorem C79_uintx_iptree {t0 t0' : Option (UIP.Tree V)} (h0 : UIP.EmptyT t0) (h0' : UIP.EmptyT t0')
    (ops1 ops2 : List (IP.Op V × Option (Fam × POp V))) (h1 : ∀ p ∈ ops1, OpNet p.1 p.2) (h2 : ∀ p ∈ ops2, OpNet p.1 p.2)
    {l : List (IPNet × V)} (hl : l.Perm (UIP.Enumerate (UIP.run t0' (ops2.map Prod.fst)))) :
    Overlay (UIP.Enumerate (UIP.run t0 (ops1.map Prod.fst))) (UIP.Enumerate (UIP.run t0' (ops2.map Prod.fst)))
      (UIP.Enumerate (UIP.run t0 ((l.map fun e => .insertNet (some e.1) e.2).reverse ++ ops1.map Prod.fst))) ∧
    (ops1 = [] → UIP.Enumerate (UIP.run t0 ((l.map fun e => .insertNet (some e.1) e.2).reverse ++ ops1.map Prod.fst)) =
      UIP.Enumerate (UIP.run t0' (ops2.map Prod.fst))) := by
  have hL : ∀ {t0 : Option (UIP.Tree V)}, UIP.EmptyT t0 → ∀ ops : List (IP.Op V × Option (Fam × POp V)), (∀ p ∈ ops, OpNet p.1 p.2) →
      Listing CanonKey (UIP.Enumerate (UIP.run t0 (ops.map Prod.fst))) (fun q : Fam × List Bool => UIP.uRun (ops.filterMap Prod.snd) q.1 q.2) ∧
      (UIP.Enumerate (UIP.run t0 (ops.map Prod.fst))).Pairwise fun a b => NetBefore a.1 b.1 := by
    intro t0 h0 ops h
    obtain ⟨e1, e2⟩ := UIP.run_spec h0 ops h
    rw [← e2]
    have hb : UIP.Enumerate (UIP.run t0 (ops.map Prod.fst)) = UIP.Enumerate (some (UIP.base (UIP.run t0 (ops.map Prod.fst)))) := by
      cases UIP.run t0 (ops.map Prod.fst) <;> rfl
    rw [hb]
    exact ⟨⟨fun x hx => let ⟨f, p, g1, g2⟩ := UIP.enumerate_sound e1 x hx; ⟨(f, p), g1, g2⟩, fun q v hq => UIP.enumerate_complete e1 hq⟩,
      UIP.enumerate_sorted e1⟩
  obtain ⟨a2, _⟩ := hL h0 ops1 h1
  obtain ⟨b2, s4⟩ := hL h0' ops2 h2
  obtain ⟨c, c1, c2, c3⟩ := copied_nets b2 (l.reverse_perm.trans hl)
  have ef : (netCalls c ops1).map Prod.fst = (l.map fun e => .insertNet (some e.1) e.2).reverse ++ ops1.map Prod.fst := by
    rw [← List.map_reverse, ← c1]; simp [netCalls, Function.comp_def]
  have hm := netCalls_means c2 h1
  obtain ⟨d2, s2⟩ := hL h0 _ hm
  have ov := overlay canonKey_fun canonKey_inj a2 b2 d2 fun q => by
    rw [uCalls_map]; exact storeAll_or c3 q
  rw [ef] at ov s2
  refine ⟨ov, ?_⟩
  rintro rfl
  refine sorted_unique (fun a b => netBefore_asymm a.1 b.1) s2 s4 fun x => ?_
  rw [ov x]
  have : ∀ x, x ∉ UIP.Enumerate (UIP.run t0 (([] : List (IP.Op V × Option (Fam × POp V))).map Prod.fst)) := fun x hx => by obtain ⟨q, _, h⟩ := a2.sound x hx; cases h
  exact ⟨fun h => h.resolve_right fun g => this x g.1, .inl⟩

/-- A network in both trees, and one inside a network of the other tree; iptree. -/
example : ((IP.run none sampleIP).bind fun t => IP.run none (((IP.Enumerate t).map fun e => .insertNet (some e.1) e.2).reverse ++
      [.insertNet (some ⟨[10, 0, 0, 0], [0xff, 0, 0, 0]⟩) 20, .insertNet (some ⟨[10, 0, 0, 0], [0xff, 0xff, 0, 0]⟩) 21])).map IP.Enumerate = some [
    (⟨[10, 0, 0, 0], [0xff, 0, 0, 0]⟩, 2), (⟨[10, 0, 0, 0], [0xff, 0xff, 0, 0]⟩, 21), (⟨[10, 0, 0, 1], [0xff, 0xff, 0xff, 0xff]⟩, 1),
    (net6 0x20 0x01 0 0 16, 4), (net6 0x20 0x01 0 0 64, 5), (net6 0x20 0x01 0 1 128, 6)] := by decide +kernel

/-- The same for the generated trees. -/
example : UIP.Enumerate (UIP.run none (((UIP.Enumerate (UIP.run none sampleIP)).map fun e => .insertNet (some e.1) e.2).reverse ++
      [.insertNet (some ⟨[10, 0, 0, 0], [0xff, 0, 0, 0]⟩) 20, .insertNet (some ⟨[10, 0, 0, 0], [0xff, 0xff, 0, 0]⟩) 21])) = [
    (⟨[10, 0, 0, 0], [0xff, 0, 0, 0]⟩, 2), (⟨[10, 0, 0, 0], [0xff, 0xff, 0, 0]⟩, 21), (⟨[10, 0, 0, 1], [0xff, 0xff, 0xff, 0xff]⟩, 1),
    (net6 0x20 0x01 0 0 16, 4), (net6 0x20 0x01 0 0 64, 5), (net6 0x20 0x01 0 1 128, 6)] := by decide +kernel

end IP

section Dom
open Verif.Domain Verif.DomTree
variable {V : Type}

/-- The key Enumerate gives for a domain. -/
def DomKey (k : Bytes) (q : List Bytes) : Prop := k = keyOf q ∧ parseLabels k = some q

theorem domKey_fun (k : Bytes) (q q' : List Bytes) (h : DomKey k q) (h' : DomKey k q') : q = q' :=
  Option.some.inj (h.2.symm.trans h'.2)

theorem domKey_inj (k k' : Bytes) (q : List Bytes) (h : DomKey k q) (h' : DomKey k' q) : k = k' := h.1.trans h'.1.symm

theorem domListing {n0 : Option (Node V)} (h0 : EmptyDT n0) (ops : List (DomTree.Op V × DOp V)) (h : ∀ p ∈ ops, OpDom p.1 p.2)
    {n : Option (Node V)} (hr : DomTree.run n0 (ops.map Prod.fst) = some n) :
    ∃ xs, DomTree.Enumerate n = some xs ∧ Listing DomKey xs (lastDom (ops.map Prod.snd)) := by
  obtain ⟨h1, h2⟩ := DomTree.run_spec h0 ops h hr
  have hE : DomTree.Enumerate n = enumN (keyOf []) (DomTree.base n) := by
    cases n with
    | none => rfl
    | some n => rw [DomTree.base_some]; rfl
  obtain ⟨es, e1, e2, _⟩ := enum_spec h1 [] (by simp [Short])
  refine ⟨_, by rw [hE, e1], ?_, ?_⟩
  · intro x hx
    obtain ⟨⟨q, v⟩, he, rfl⟩ := List.mem_map.1 hx
    have hq : lastDom (ops.map Prod.snd) q = some v := by rw [← h2]; exact (e2 q v).1 he
    obtain ⟨d, hd⟩ := stored_parsed h hq
    obtain ⟨d', p1, p2⟩ := hd.reparse
    exact ⟨q, ⟨rfl, by simp [parseLabels, p1, p2]⟩, hq⟩
  · intro q v hq
    obtain ⟨d, hd⟩ := stored_parsed h hq
    obtain ⟨d', p1, p2⟩ := hd.reparse
    exact ⟨_, List.mem_map.2 ⟨(q, v), (e2 q v).2 (by rw [h2]; exact hq), rfl⟩, ⟨rfl, by simp [parseLabels, p1, p2]⟩, rfl⟩

theorem domCalls_map (c : List (DomTree.Op V × List Bytes × V)) (ops : List (DomTree.Op V × DOp V)) (q : List Bytes) :
    lastDom ((c.map (fun p => (p.1, DOp.insert p.2.1 p.2.2)) ++ ops).map Prod.snd) q =
      storeAll (lastDom (ops.map Prod.snd)) (c.map Prod.snd) q := by
  induction c with
  | nil => rfl
  | cons p c ih =>
    simp only [List.map_cons, List.cons_append, lastDom, storeAll]
    rw [ih]

/-- C79, domaintree: every key of the listing parses, and inserting the entries under the parsed names merges the trees.
`p.1` is a listed entry and `p.2` the name its key parses to. -/
theorem C79_domaintree {n0 n0' : Option (Node V)} (h0 : EmptyDT n0) (h0' : EmptyDT n0') (ops1 ops2 : List (DomTree.Op V × DOp V))
    (h1 : ∀ p ∈ ops1, OpDom p.1 p.2) (h2 : ∀ p ∈ ops2, OpDom p.1 p.2) {n1 n2 : Option (Node V)}
    (hr1 : DomTree.run n0 (ops1.map Prod.fst) = some n1) (hr2 : DomTree.run n0' (ops2.map Prod.fst) = some n2) :
    ∃ xs1 xs2, DomTree.Enumerate n1 = some xs1 ∧ DomTree.Enumerate n2 = some xs2 ∧
      (∀ x ∈ xs2, ∃ d, MakeNameFromString x.1 = .ok d) ∧
      ∀ ps : List ((Bytes × V) × Name), (ps.map Prod.fst).Perm xs2 → (∀ p ∈ ps, MakeNameFromString p.1.1 = .ok p.2) →
        ∃ n xs, DomTree.run n0 ((ps.map fun p => .insert p.2 p.1.2).reverse ++ ops1.map Prod.fst) = some n ∧
          DomTree.Enumerate n = some xs ∧ Overlay xs1 xs2 xs ∧ (ops1 = [] → xs = xs2) := by
  obtain ⟨xs1, a1, a2⟩ := domListing h0 ops1 h1 hr1
  obtain ⟨xs2, b1, b2⟩ := domListing h0' ops2 h2 hr2
  refine ⟨xs1, xs2, a1, b1, ?_, fun ps hp hn => ?_⟩
  · intro x hx
    obtain ⟨q, hq, _⟩ := b2.sound x hx
    have := hq.2
    unfold parseLabels at this
    cases e : MakeNameFromString x.1 with
    | ok d => exact ⟨d, rfl⟩
    | err _ => rw [e] at this; cases this
    | panic => rw [e] at this; cases this
  have hm : ∀ ps : List ((Bytes × V) × Name), (∀ p ∈ ps, p.1 ∈ xs2) → (∀ p ∈ ps, MakeNameFromString p.1.1 = .ok p.2) →
      ∃ c : List (DomTree.Op V × List Bytes × V), c.map Prod.fst = ps.map (fun p => .insert p.2 p.1.2) ∧
        (∀ p ∈ c, ∃ d, p.1 = .insert d p.2.2 ∧ Parsed d p.2.1) ∧
        ∀ q v, (q, v) ∈ c.map Prod.snd ↔ ∃ k, DomKey k q ∧ (k, v) ∈ ps.map Prod.fst := by
    intro ps hx hn
    induction ps with
    | nil => exact ⟨[], rfl, by simp, by simp⟩
    | cons x ps ih =>
      obtain ⟨c, c1, c2, c3⟩ := ih (fun y hy => hx y (by simp [hy])) fun y hy => hn y (by simp [hy])
      obtain ⟨q, hq, hv⟩ := b2.sound x.1 (hx x (by simp))
      have hd := hn x (by simp)
      have hlab : x.2.labels = some q := by have := hq.2; unfold parseLabels at this; rw [hd] at this; exact this
      refine ⟨(.insert x.2 x.1.2, q, x.1.2) :: c, by simp [c1], ?_, ?_⟩
      · intro p hp
        rcases List.mem_cons.1 hp with rfl | hp
        · exact ⟨_, rfl, ⟨_, hd⟩, hlab⟩
        · exact c2 p hp
      · intro q' v'
        simp only [List.map_cons, List.mem_cons, c3]
        constructor
        · rintro (h | ⟨k, h, h'⟩)
          · cases h; exact ⟨x.1.1, hq, .inl rfl⟩
          · exact ⟨k, h, .inr h'⟩
        · rintro ⟨k, h, e | h'⟩
          · refine .inl ?_
            have e1 : k = x.1.1 := congrArg Prod.fst e
            have e2 : v' = x.1.2 := congrArg Prod.snd e
            subst e2
            rw [domKey_fun k q' q h (by rw [e1]; exact hq)]
          · exact .inr ⟨k, h, h'⟩
  obtain ⟨c, c1, c2, c3⟩ := hm ps.reverse
    (fun p hp' => hp.mem_iff.1 (List.mem_map.2 ⟨p, List.mem_reverse.1 hp', rfl⟩)) fun p hp' => hn p (List.mem_reverse.1 hp')
  have c3' : ∀ q v, (q, v) ∈ c.map Prod.snd ↔ lastDom (ops2.map Prod.snd) q = some v := by
    intro q v
    rw [c3, List.map_reverse]
    constructor
    · rintro ⟨k, hk, h⟩
      exact (b2.mem domKey_fun domKey_inj hk v).1 (hp.mem_iff.1 (List.mem_reverse.1 h))
    · intro h
      obtain ⟨x, hx, hk, rfl⟩ := b2.complete q v h
      exact ⟨x.1, hk, List.mem_reverse.2 (hp.mem_iff.2 hx)⟩
  have run_ok : ∀ c : List (DomTree.Op V × List Bytes × V), (∀ p ∈ c, ∃ d, p.1 = .insert d p.2.2 ∧ Parsed d p.2.1) →
      (∀ p ∈ c.map (fun p => (p.1, DOp.insert p.2.1 p.2.2)) ++ ops1, OpDom p.1 p.2) ∧
      ∃ n, DomTree.run n0 ((c.map (fun p => (p.1, DOp.insert p.2.1 p.2.2)) ++ ops1).map Prod.fst) = some n := by
    intro c hc
    induction c with
    | nil => exact ⟨h1, n1, hr1⟩
    | cons p c ih =>
      obtain ⟨g1, n, g2⟩ := ih fun p hp => hc p (by simp [hp])
      obtain ⟨d, hop, hp⟩ := hc p (by simp)
      obtain ⟨op, ls, v⟩ := p
      simp only at hop hp
      subst hop
      refine ⟨?_, ?_⟩
      · intro x hx
        rcases List.mem_cons.1 hx with rfl | hx
        · exact .insert hp
        · exact g1 x hx
      · obtain ⟨⟨s, hs⟩, _⟩ := hp
        have := (C35_insert_get h0 _ g1 g2 hs v).1
        simp only [List.map_cons, List.cons_append, DomTree.run, g2, Option.bind_some, DomTree.step]
        exact Option.ne_none_iff_exists'.1 this
  obtain ⟨hm1, n, hr⟩ := run_ok c c2
  obtain ⟨xs, d1, d2⟩ := domListing h0 _ hm1 hr
  have ef : (c.map (fun p => (p.1, DOp.insert p.2.1 p.2.2)) ++ ops1).map Prod.fst =
      (ps.map fun p => .insert p.2 p.1.2).reverse ++ ops1.map Prod.fst := by
    rw [← List.map_reverse, ← c1]; simp [Function.comp_def]
  have hmap : ∀ q, lastDom ((c.map (fun p => (p.1, DOp.insert p.2.1 p.2.2)) ++ ops1).map Prod.snd) q =
      (lastDom (ops2.map Prod.snd) q).or (lastDom (ops1.map Prod.snd) q) := fun q => by
    rw [domCalls_map]; exact storeAll_or c3' q
  have ov := overlay domKey_fun domKey_inj a2 b2 d2 hmap
  refine ⟨n, xs, by rw [← ef]; exact hr, d1, ov, ?_⟩
  rintro rfl
  have := C32_same_listing h0 h0' _ _ hm1 h2 hr hr2 fun q => by rw [hmap]; simp [lastDom]
  rw [d1, b1] at this
  exact Option.some.inj this

/-- The key `x\\.y.com` of the listing is parsed again; `a` is in both trees. -/
example : ((DomTree.run (V := Nat) none [.insert (nm "b.a") 3, .insert (nm "x\\.y.com") 1, .insert (nm "a") 2]).bind DomTree.Enumerate).bind
    (fun l => (DomTree.run none ((l.map fun e => .insert (match MakeNameFromString e.1 with | .ok d => d | _ => ⟨[], []⟩) e.2).reverse ++
      [.insert (nm "A.") 7, .insert (nm "c.b.a") 8])).bind DomTree.Enumerate) =
    some [(txt "a", 2), (txt "b.a", 3), (txt "c.b.a", 8), (txt "x\\.y.com", 1)] := by decide +kernel

end Dom

end Verif.Props
