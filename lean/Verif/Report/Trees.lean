import Verif.Heap.Report
import Verif.Props.Goroutines

/-!
# What the deletions of the six trees report

Per tree: the copy-on-write calls of its heap model with the flag `Delete…` returns next to the tree (`none` for calls that return no flag), which flag is right after
which chain of calls, and the proof that it is.
-/

namespace Verif.Props
open Verif Verif.Heap Prog

/-- Calls that report nothing. -/
theorem wp_quiet {D O R : Type} {I : OImpl D O R} {n : Nat} (hI : I.Lawful n) {l : List O} {o : O} {r : R} {h : Heap D} {F : Addr → Prop} (hn : l.length < n)
    (hok : I.cowOk l o) (ho : I.Obj h r l F) {p : Prog D R} (hp : I.cow o r = p) {Q : R × Option Bool → Heap D → Prop} (hQ : ∀ x h', x.2 = none → Q x h') :
    wp (fun _ => True) (p >>= fun x => pure (x, (none : Option Bool))) Q h := by
  rw [wp_bind, ← hp]
  exact wp_mono (fun _ _ => trivial) (fun x h' _ => hQ _ _ rfl) (hI.cow_ok l o r h F hn hok ho)

theorem quiet_same {D R : Type} (p : Prog D R) : p = ((p >>= fun x => pure (x, (none : Option Bool))) >>= fun x => pure x.1) :=
  ((map_map p (fun x => (x, (none : Option Bool))) Prod.fst).trans (map_id p)).symm

theorem told_same {D R : Type} (p : Prog D (R × Bool)) : (p >>= fun x => pure x.1) = ((p >>= fun x => pure (x.1, some x.2)) >>= fun x => pure x.1) :=
  (map_map p (fun x => (x.1, some x.2)) Prod.fst).symm

section Numtree
open Verif.Num Verif.NumHeap
variable {w : Nat} {V : Type} [LawfulKeySize w] [Inhabited V]

/-- The flag of a numtree `Delete`: a stored key lies below the key deleted. -/
def NumReports : List (NumOp w V) → Option Bool → Prop
  | .delete k bits :: l, b => ∃ f, b = some f ∧ (f = true ↔ ∃ q v, sig k (clampSpec w bits) <+: q ∧ lastWrite (l.map NumOp.abs) q = some v)
  | _, b => b = none

/-- numtree/node32.go:64-73, 167-182, numtree/node64.go:73-81, 161-173 (`Insert`, `Delete`). -/
def numReport (f : Nat) : Report (ND w V) (NumOp w V) Ptr (Option Bool) where
  cow
    | .insert k b v, r => do let x ← InsertP f r k b v; pure (x, none)
    | .delete k b, r => do let x ← DeleteP f r k b; pure (x.1, some x.2)
  quiet := none
  Says := NumReports

theorem numReport_lawful {f : Nat} (hf : w + 2 ≤ f) (n : Nat) : (numReport (w := w) (V := V) f).Lawful (numImpl f w V).toO n where
  same o r := by
    cases o with
    | insert k b v => exact quiet_same (InsertP f r k b v)
    | delete k b => exact told_same (DeleteP (V := V) f r k b)
  right l o r h F hn hok ho := by
    cases o with
    | insert k b v => exact wp_quiet (Impl.toO_lawful (numImpl_lawful (V := V) hf _)) hn hok ho rfl fun x _ e => e
    | delete k b =>
      obtain ⟨A, rfl, a1, a2, _, _⟩ := ho
      have a2 : ATree.erase A = Num.run l := a2
      have hh : A.height < f := by
        have := run_height (w := w) (V := V) l
        have e := erase_height A
        rw [a2] at e
        omega
      show wp _ (DeleteP f (ATree.ptr A) k b >>= fun x => pure (x.1, some x.2)) _ h
      rw [wp_bind]
      refine wp_mono (fun _ _ => trivial) ?_ (DeleteP_spec hh a1 k b)
      rintro x h' ⟨t', _, _, e, _, _⟩
      refine ⟨x.2, rfl, ?_⟩
      rw [a2] at e
      rw [congrArg Prod.snd e]
      have h1 := run_wf l
      have h2 := (del_spec h1.1 k (clamp_le b)).2.2.1
      unfold Num.Delete
      rw [h2, PMap.HasBelow, h1.2.1, clamp_eq]
  fresh := rfl
  inp l o ho := by
    cases o with
    | insert k b v => rfl
    | delete k b => exact ho.elim

end Numtree

section Strtree
open Verif.RB Verif.RBHeap
variable {V : Type} [Inhabited V]

/-- The flag of a strtree `Delete`: the key is stored. -/
def KVReports (cmp : Bytes → Bytes → Int) : List (KOp Bytes V) → Option Bool → Prop
  | .delete k :: l, b => b = some (lastWriteBy cmp l k).isSome
  | _, b => b = none

/-- strtree/strtree.go:32-46, 80-88 (`Insert`, `Delete`). -/
def kvReport (cmp : Bytes → Bytes → Int) (f : Nat) : Report (RD Bytes V) (KOp Bytes V) Ptr (Option Bool) where
  cow
    | .insert k v, r => do let x ← insertP cmp f r k v; pure (x, none)
    | .delete k, r => do let x ← delP cmp f r k; pure (x.1, some x.2)
  quiet := none
  Says := KVReports cmp

theorem kvReport_lawful {cmp : Bytes → Bytes → Int} (hc : LawfulCmp cmp) {f n : Nat} (hf : 2 * n + 3 ≤ f) : (kvReport (V := V) cmp f).Lawful (rbImpl cmp f).toO n where
  same o r := by
    cases o with
    | insert k v => exact quiet_same (insertP cmp f r k v)
    | delete k => exact told_same (delP (V := V) cmp f r k)
  right l o r h F hn hok ho := by
    cases o with
    | insert k v => exact wp_quiet (Impl.toO_lawful (rbImpl_lawful (V := V) hc.refl hf)) hn hok ho rfl fun x _ e => e
    | delete k =>
      obtain ⟨A, rfl, a1, a2, a3, _⟩ := ho
      have a2 : ATree.erase A = (RB.run cmp l).getD .nil := a2
      obtain ⟨r1, r2, r3⟩ := run_getD (V := V) hc.refl l
      rw [← a2] at r1 r2 r3
      rw [RBHeap.erase_height] at r3
      show wp _ (delP cmp f (ATree.ptr A) k >>= fun x => pure (x.1, some x.2)) _ h
      rw [wp_bind]
      refine wp_mono (fun _ _ => trivial) ?_ (delP_spec (cmp := cmp) a1 a3 (f := f) (by omega) (key := k) r2)
      rintro x h' ⟨t', _, _, e, _⟩
      show some x.2 = _
      congr 1
      have h5 := (RB.run_spec hc r1).1
      rw [congrArg Prod.snd e, ← RB.get_run hc r1, RB.get_spec hc h5, Option.isSome_map, Bool.eq_iff_iff, (RB.del_spec hc h5 k).2, Option.isSome_iff_exists]
      constructor
      · rintro ⟨a, ha, h⟩; exact ⟨a, (h5.lookupL_iff hc k a).2 ⟨ha, h⟩⟩
      · rintro ⟨a, ha⟩; exact ⟨a, (h5.lookupL_iff hc k a).1 ha⟩
  fresh := rfl
  inp l o ho := by
    cases o with
    | insert k v => rfl
    | delete k => exact ho.elim

end Strtree

section Iptree
open Verif.IP Verif.IPHeap
variable {V : Type} [Inhabited V]

/-- The flag of an iptree deletion, however the calls are read as networks: a stored network lies in the network deleted. -/
def NetFlag (o : Op V) (l : List (Op V)) (b : Option Bool) : Prop :=
  ∃ f, b = some f ∧ ∀ ps : List (Op V × Option (Fam × POp V)), ps.map Prod.fst = l → (∀ p ∈ ps, OpNet p.1 p.2) → ∀ x, OpNet o x →
    (f = true ↔ ∃ g p q v, x = some (g, .delete p) ∧ p <+: q ∧ lastNet (ps.filterMap Prod.snd) g q = some v)

/-- What iptree calls report. -/
def NetReports : List (Op V) → Option Bool → Prop
  | .deleteByNet n :: l, b => NetFlag (.deleteByNet n) l b
  | .deleteByIP ip :: l, b => NetFlag (.deleteByIP ip) l b
  | _, b => b = none

/-- iptree/iptree.go:41-92, 220-222, 284-323, 326-328 (`InsertNet`, `InsertIP`, `DeleteByNet`, `DeleteByIP`). -/
def netReport (f : Nat) : Report (IPD V) (Op V) Ptr (Option Bool) where
  cow
    | .insertNet n v, r => do let x ← InsertNetP f r n v; pure (x, none)
    | .insertIP ip v, r => do let x ← InsertIPP f r ip v; pure (x, none)
    | .deleteByNet n, r => do let x ← DeleteByNetP f r n; pure (x.1, some x.2)
    | .deleteByIP ip, r => do let x ← DeleteByIPP f r ip; pure (x.1, some x.2)
  quiet := none
  Says := NetReports

/-- The flag of `DeleteByNet` on the tree a chain of calls makes. -/
theorem net_flag {st : Bool} {l : List (Op V)} {t t' : Option (Tree V)} {b : Bool} (ht : IP.run (start0 st) l = some t) {n : Option IPNet} {o : Op V}
    (ho : ∀ x, OpNet o x → OpNet (.deleteByNet n) x) (hd : IP.DeleteByNet t n = some (t', b)) : NetFlag o l (some b) := by
  refine ⟨b, rfl, ?_⟩
  rintro ps rfl hps x hx
  have h0 : EmptyT (start0 (V := V) st) := by cases st <;> simp [start0, EmptyT]
  cases ho x hx with
  | @deleteNet n g p hn =>
    obtain ⟨t1, t2, d, e1, e2, e3, _⟩ := C38_delete h0 ps hps hn
    rw [ht] at e1; cases e1
    rw [hd] at e2; cases e2
    rw [e3]
    constructor
    · rintro ⟨q, v, a, c⟩; exact ⟨_, _, q, v, rfl, a, c⟩
    · rintro ⟨_, _, q, v, e, a, c⟩; cases e; exact ⟨q, v, a, c⟩
  | deleteNil =>
    have : b = false := by cases t <;> simp [IP.DeleteByNet] at hd <;> exact hd.2
    subst this; simp
  | deleteBad hn =>
    rw [IP.deleteByNet_bad hn] at hd; cases hd
    simp

omit [Inhabited V] in
theorem opNet_delIP {ip : Bytes} {x : Option (Fam × POp V)} (h : OpNet (.deleteByIP ip) x) : OpNet (.deleteByNet (newIPNetFromIP ip)) x := by
  cases h with
  | deleteIP hn =>
    obtain ⟨n, e, hn⟩ := newIPNet_of_addr hn
    rw [e]; exact .deleteNet hn
  | deleteBadIP hn => rw [newIPNet_none hn]; exact .deleteNil

theorem netReport_lawful (st : Bool) {f : Nat} (hf : 66 ≤ f) (n : Nat) : (netReport (V := V) f).Lawful (ipImpl st f) n where
  same o r := by
    cases o with
    | insertNet n v => exact quiet_same (InsertNetP f r n v)
    | insertIP ip v => exact quiet_same (InsertIPP f r ip v)
    | deleteByNet n => exact told_same (DeleteByNetP (V := V) f r n)
    | deleteByIP ip => exact told_same (DeleteByIPP (V := V) f r ip)
  right l o r h F hn hok ho := by
    obtain ⟨t, h1, hT⟩ := ho
    obtain ⟨t', h2⟩ := run_total (V := V) st (o :: l)
    have h3 : IP.step t o = some t' := by simpa [IP.run, h1] using h2
    cases o with
    | insertNet n v => exact wp_quiet (ipImpl_lawful (V := V) st hf _) hn hok ⟨t, h1, hT⟩ rfl fun x _ e => e
    | insertIP ip v => exact wp_quiet (ipImpl_lawful (V := V) st hf _) hn hok ⟨t, h1, hT⟩ rfl fun x _ e => e
    | deleteByNet n =>
      simp only [IP.step, Option.map_eq_some_iff] at h3
      obtain ⟨⟨t1, b⟩, h3, rfl⟩ := h3
      show wp _ (DeleteByNetP f r n >>= fun x => pure (x.1, some x.2)) _ h
      rw [wp_bind]
      refine wp_mono (fun _ _ => trivial) ?_ (DeleteByNetP_spec hf hT h3)
      rintro ⟨x, _⟩ h' ⟨rfl, _⟩
      exact net_flag h1 (fun _ => id) h3
    | deleteByIP ip =>
      simp only [IP.step, Option.map_eq_some_iff] at h3
      obtain ⟨⟨t1, b⟩, h3, rfl⟩ := h3
      show wp _ (DeleteByNetP f r _ >>= fun x => pure (x.1, some x.2)) _ h
      rw [wp_bind]
      refine wp_mono (fun _ _ => trivial) ?_ (DeleteByNetP_spec hf hT h3)
      rintro ⟨x, _⟩ h' ⟨rfl, _⟩
      exact net_flag h1 (fun _ => opNet_delIP) h3
  fresh := rfl
  inp l o ho := by
    cases o with
    | insertNet n v => rfl
    | insertIP ip v => rfl
    | deleteByNet n => exact ho.2.elim
    | deleteByIP ip => exact ho.2.elim

end Iptree

section UIptree
open Verif.IP Verif.UIPHeap
variable {V : Type} [Inhabited V]

/-- The flag of a uintX/iptree deletion: a stored network lies in the network deleted, and the deletion is not one of an IPv6 network below 64 bits that is not stored
itself (for these the deletion has no effect, see C48). -/
def UNetFlag (o : Op V) (l : List (Op V)) (b : Option Bool) : Prop :=
  ∃ f, b = some f ∧ ∀ ps : List (Op V × Option (Fam × POp V)), ps.map Prod.fst = l → (∀ p ∈ ps, OpNet p.1 p.2) → ∀ x, OpNet o x →
    (f = true ↔ ∃ g p q v, x = some (g, .delete p) ∧ p <+: q ∧ UIP.uRun (ps.filterMap Prod.snd) g q = some v ∧
      (g = .v4 ∨ 64 ≤ p.length ∨ UIP.uRun (ps.filterMap Prod.snd) g p ≠ none))

/-- What uintX/iptree calls report. -/
def UNetReports : List (Op V) → Option Bool → Prop
  | .deleteByNet n :: l, b => UNetFlag (.deleteByNet n) l b
  | .deleteByIP ip :: l, b => UNetFlag (.deleteByIP ip) l b
  | _, b => b = none

/-- uintX/iptree8/iptree.go:38-73, 97-99, 161-188, 191-193 (`InsertNet`, `InsertIP`, `DeleteByNet`, `DeleteByIP`), the same in iptree16, 32, 64. -/
def unetReport (f : Nat) : Report (UD V) (Op V) Ptr (Option Bool) where
  cow
    | .insertNet n v, r => do let x ← InsertNetP f r n v; pure (x, none)
    | .insertIP ip v, r => do let x ← InsertIPP f r ip v; pure (x, none)
    | .deleteByNet n, r => do let x ← DeleteByNetP f r n; pure (x.1, some x.2)
    | .deleteByIP ip, r => do let x ← DeleteByIPP f r ip; pure (x.1, some x.2)
  quiet := none
  Says := UNetReports

/-- The flag of `DeleteByNet` on the tree a chain of calls makes. -/
theorem unet_flag {l : List (Op V)} {t : Option (UIP.Tree V)} (ht : Leaves t l) {n : Option IPNet} {o : Op V}
    (ho : ∀ x, OpNet o x → OpNet (.deleteByNet n) x) : UNetFlag o l (some (UIP.DeleteByNet t n).2) := by
  refine ⟨_, rfl, ?_⟩
  rintro ps rfl hps x hx
  have hu := ht.2 ps rfl hps
  rw [← hu]
  cases ho x hx with
  | @deleteNet n g p hn =>
    cases t with
    | none =>
      have : ∀ q, UIP.denT (UIP.base (none : Option (UIP.Tree V))) g q = none := fun q => by rw [UIP.base_none, UIP.denT_new]
      constructor
      · intro e; cases e
      · rintro ⟨g', p', q, v, e, a, c, _⟩; cases e; rw [this] at c; cases c
    | some t =>
      obtain ⟨t', d, d1, d2, d3, d4, d5⟩ := UIP.deleteByNet_ok (t := t) ht.1 hn
      rw [d1]
      have hb : UIP.base (some t) = t := rfl
      rw [hb]
      have he : UIP.Effective t g p ↔ (g = .v4 ∨ 64 ≤ p.length ∨ UIP.denT t g p ≠ none) := by
        unfold UIP.Effective
        rw [Option.isSome_iff_ne_none, Nat.not_lt]
      by_cases hE : UIP.Effective t g p
      · rw [(d4 hE).2]
        constructor
        · rintro ⟨q, v, a, c⟩; exact ⟨_, _, q, v, rfl, a, c, he.1 hE⟩
        · rintro ⟨_, _, q, v, e, a, c, _⟩; cases e; exact ⟨q, v, a, c⟩
      · rw [d5 hE]
        constructor
        · intro e; cases e
        · rintro ⟨_, _, q, v, e, a, c, hh⟩; cases e; exact (hE (he.2 hh)).elim
  | deleteNil =>
    have : (UIP.DeleteByNet t none).2 = false := by cases t <;> rfl
    rw [this]; simp
  | deleteBad hn =>
    rw [UIP.deleteByNet_bad hn]; simp

theorem unetReport_lawful (st : Bool) {f : Nat} (hf : 66 ≤ f) (n : Nat) : (unetReport (V := V) f).Lawful (uipImpl st f) n where
  same o r := by
    cases o with
    | insertNet n v => exact quiet_same (InsertNetP f r n v)
    | insertIP ip v => exact quiet_same (InsertIPP f r ip v)
    | deleteByNet n => exact told_same (DeleteByNetP (V := V) f r n)
    | deleteByIP ip => exact told_same (DeleteByIPP (V := V) f r ip)
  right l o r h F hn hok ho := by
    cases o with
    | insertNet n v => exact wp_quiet (uipImpl_lawful (V := V) st hf _) hn hok ho rfl fun x _ e => e
    | insertIP ip v => exact wp_quiet (uipImpl_lawful (V := V) st hf _) hn hok ho rfl fun x _ e => e
    | deleteByNet n =>
      obtain ⟨t, hT, hL, _⟩ := ho
      show wp _ (DeleteByNetP f r n >>= fun x => pure (x.1, some x.2)) _ h
      rw [wp_bind]
      refine wp_mono (fun _ _ => trivial) ?_ (DeleteByNetP_spec hf hT n)
      rintro ⟨x, _⟩ h' ⟨rfl, _⟩
      exact unet_flag hL fun _ => id
    | deleteByIP ip =>
      obtain ⟨t, hT, hL, _⟩ := ho
      show wp _ (DeleteByNetP f r _ >>= fun x => pure (x.1, some x.2)) _ h
      rw [wp_bind]
      refine wp_mono (fun _ _ => trivial) ?_ (DeleteByNetP_spec hf hT _)
      rintro ⟨x, _⟩ h' ⟨rfl, _⟩
      exact unet_flag hL fun _ => opNet_delIP
  fresh := rfl
  inp l o ho := by
    cases o with
    | insertNet n v => rfl
    | insertIP ip v => rfl
    | deleteByNet n => exact ho.2.elim
    | deleteByIP ip => exact ho.2.elim

end UIptree

section Dltree
open Verif.DL Verif.DLHeap
variable {V : Type} [Inhabited V]

/-- The flag of a dltree deletion, with the texts read as labels: the label is stored. -/
def LabelFlag (o : DL.Op V) (l : List (DL.Op V)) (b : Option Bool) : Prop :=
  ∃ (ps : List (DL.Op V × KOp Bytes V)) (k : Bytes), ps.map Prod.fst = l ∧ (∀ p ∈ ps, OpMeans p.1 p.2) ∧ OpMeans o (.delete k) ∧ b = some (lastWrite' (ps.map Prod.snd) k).isSome

/-- What dltree calls report. -/
def LabelReports : List (DL.Op V) → Option Bool → Prop
  | .delete s :: l, b => LabelFlag (.delete s) l b
  | .rawDelete s :: l, b => LabelFlag (.rawDelete s) l b
  | _, b => b = none

/-- dltree/dltree.go:23-34, 37-47, 114-122, 125-132 (`Insert`, `RawInsert`, `Delete`, `RawDelete`). -/
def labelReport (f : Nat) : Report (LD V) (DL.Op V) Ptr (Option Bool) where
  cow
    | .insert k v, r => do let x ← InsertP lm f r k v; pure (x, none)
    | .rawInsert k v, r => do let x ← RawInsertP lm f r k v; pure (x, none)
    | .delete k, r => do let x ← DeleteP lm f r k; pure (x.1, some x.2)
    | .rawDelete k, r => do let x ← RawDeleteP lm f r k; pure (x.1, some x.2)
  quiet := none
  Says := LabelReports

theorem label_flag {st : Bool} {l : List (DL.Op V)} (h0 : ∀ o ∈ l, ∃ k, OpMeans o k) {t : Option (DL.Tree V)} (ht : DL.run (start0 st) l = some t) {o : DL.Op V} {k : Bytes}
    (ho : OpMeans o (.delete k)) : LabelFlag o l (some (RawDelete t k).2) := by
  obtain ⟨ps, rfl, hps⟩ : ∃ ps : List (DL.Op V × KOp Bytes V), ps.map Prod.fst = l ∧ ∀ p ∈ ps, OpMeans p.1 p.2 := by
    clear ht
    induction l with
    | nil => exact ⟨[], rfl, by simp⟩
    | cons o l ih =>
      obtain ⟨ps, h1, h2⟩ := ih fun x hx => h0 x (by simp [hx])
      obtain ⟨k, hk⟩ := h0 o (by simp)
      refine ⟨(o, k) :: ps, by simp [h1], ?_⟩
      simp only [List.mem_cons, forall_eq_or_imp]
      exact ⟨hk, h2⟩
  refine ⟨ps, k, rfl, hps, ho, ?_⟩
  obtain ⟨t1, e, h1, _⟩ := C26_delete_flag (t0 := start0 (V := V) st) (by cases st <;> simp [start0, DL.NewTree]) ps hps
  rw [ht] at e; cases e
  rw [h1]

theorem labelReport_lawful (st : Bool) {f n : Nat} (hf : 2 * n + 3 ≤ f) : (labelReport (V := V) f).Lawful (dlImpl st f) n where
  same o r := by
    cases o with
    | insert k v => exact quiet_same (InsertP lm f r k v)
    | rawInsert k v => exact quiet_same (RawInsertP lm f r k v)
    | delete k => exact told_same (DeleteP (lm (V := V)) f r k)
    | rawDelete k => exact told_same (RawDeleteP (lm (V := V)) f r k)
  right l o r h F hn hok ho := by
    cases o with
    | insert k v => exact wp_quiet (dlImpl_lawful (V := V) st hf) hn hok ho rfl fun x _ e => e
    | rawInsert k v => exact wp_quiet (dlImpl_lawful (V := V) st hf) hn hok ho rfl fun x _ e => e
    | delete k =>
      obtain ⟨h0, A, hL, h1, _⟩ := ho
      obtain ⟨k', hk⟩ := hok
      cases hk with
      | @delete s dl hm =>
        show wp _ (DeleteP lm f r k >>= fun x => pure (x.1, some x.2)) _ h
        rw [DeleteP_eq hm.labelOf, wp_bind]
        refine wp_mono (fun _ _ => trivial) ?_ (cowP_delete hL (by omega) dl)
        rintro x h' ⟨A', _, e, _⟩
        have := label_flag h0 h1 (.delete hm)
        rw [e] at this
        exact this
    | rawDelete k =>
      obtain ⟨h0, A, hL, h1, _⟩ := ho
      show wp _ (RawDeleteP lm f r k >>= fun x => pure (x.1, some x.2)) _ h
      rw [wp_bind]
      refine wp_mono (fun _ _ => trivial) ?_ (cowP_delete hL (by omega) k)
      rintro x h' ⟨A', _, e, _⟩
      have := label_flag h0 h1 (.rawDelete (l := k))
      rw [e] at this
      exact this
  fresh := rfl
  inp l o ho := by
    cases o with
    | insert k v => rfl
    | rawInsert k v => rfl
    | delete k => exact ho.2.1.elim
    | rawDelete k => exact ho.2.1.elim

end Dltree

section Domaintree
open Verif.DomTree Verif.DomHeap
variable {V : Type}

/-- What domaintree calls report: `Delete` whether the domain is stored, `DeleteSubdomains` whether the domain or a subdomain is. -/
def DomReports : List (Op V) → Option Bool → Prop
  | .delete d :: l, b => ∀ ls, d.labels = some ls → b = some (storedBy l ls).isSome
  | .deleteSub d :: l, b => ∃ f, b = some f ∧ ∀ ls, d.labels = some ls → (f = true ↔ ∃ q v, ls <+: q ∧ storedBy l q = some v)
  | _, b => b = none

/-- domaintree/domaintree.go:30-53, 145-181, 117-142 (`Insert`, `Delete`, `DeleteSubdomains`). -/
def domReport (f : Nat) : Report (DD V) (Op V) Ptr (Option Bool) where
  cow
    | .insert d v, r => do let x ← InsertP f r d v; pure (x, none)
    | .delete d, r => do let x ← DeleteP f r d; pure (x.1, some x.2)
    | .deleteSub d, r => do let x ← DeleteSubdomainsP f r d; pure (x.1, some x.2)
    | .inplace _ _, _ => .stop .panic
  quiet := none
  Says := DomReports

theorem domReport_lawful (st : Bool) {f n : Nat} (hf : 2 * n + 3 ≤ f) : (domReport (V := V) f).Lawful (domImpl st f) n where
  same o r := by
    cases o with
    | insert d v => exact quiet_same (InsertP f r d v)
    | delete d => exact told_same (DeleteP (V := V) f r d)
    | deleteSub d => exact told_same (DeleteSubdomainsP (V := V) f r d)
    | inplace d v => rfl
  right l o r h F hn hok ho := by
    cases o with
    | insert d v => exact wp_quiet (domImpl_lawful (V := V) st hf) hn hok ho rfl fun x _ e => e
    | inplace d v => exact hok.2.elim
    | delete d =>
      obtain ⟨h0, t, h1, hT⟩ := ho
      obtain ⟨t', h3⟩ := cow_some h0 h1 hok
      obtain ⟨⟨s, hs⟩, hok⟩ := hok
      obtain ⟨ls, hd⟩ := holds_of_parse hs
      have hk : ls.length < 128 := by have := hd.count; omega
      simp only [DomTree.step, Option.map_eq_some_iff] at h3
      obtain ⟨⟨t1, b⟩, h3, rfl⟩ := h3
      show wp _ (DeleteP f r d >>= fun x => pure (x.1, some x.2)) _ h
      rw [wp_bind]
      refine wp_mono (fun _ _ => trivial) ?_ (DeleteP_spec (by have := DLHeap.tall_le l.length; omega) hT hd hk h3)
      rintro ⟨x, _⟩ h' ⟨rfl, _⟩ ls' hls
      rw [show d.labels = some ls from hd.labels] at hls; cases hls
      obtain ⟨w1, w2⟩ := run_stored h0 h1
      congr 1
      rw [← w2]
      cases t with
      | none => cases h3; rw [base_none, valueAt_new]; rfl
      | some n =>
        simp only [base_some] at w1 w2 ⊢
        rcases delete_api w1 hd with ⟨g1, g2⟩ | ⟨m, r, g1, g2, g3, g4, g5⟩ | ⟨m, g1, g2, g3⟩
        · rw [show opName (Op.delete (V := V) d) = d from rfl, h3] at g2; cases g2
          simp [valueAt, g1]
        · rw [show opName (Op.delete (V := V) d) = d from rfl, h3] at g3; cases g3
          rw [valueAt, g1, Option.bind_some]
          cases m.val <;> rfl
        · rw [show opName (Op.delete (V := V) d) = d from rfl, h3] at g3; cases g3
    | deleteSub d =>
      obtain ⟨h0, t, h1, hT⟩ := ho
      obtain ⟨t', h3⟩ := cow_some h0 h1 hok
      obtain ⟨⟨s, hs⟩, hok⟩ := hok
      obtain ⟨ls, hd⟩ := holds_of_parse hs
      have hk : ls.length < 128 := by have := hd.count; omega
      simp only [DomTree.step, Option.map_eq_some_iff] at h3
      obtain ⟨⟨t1, b⟩, h3, rfl⟩ := h3
      show wp _ (DeleteSubdomainsP f r d >>= fun x => pure (x.1, some x.2)) _ h
      rw [wp_bind]
      refine wp_mono (fun _ _ => trivial) ?_ (DeleteSubdomainsP_spec (by have := DLHeap.tall_le l.length; omega) hT hd hk h3)
      rintro ⟨x, _⟩ h' ⟨rfl, _⟩
      refine ⟨_, rfl, fun ls' hls => ?_⟩
      rw [show d.labels = some ls from hd.labels] at hls; cases hls
      obtain ⟨w1, w2⟩ := run_stored h0 h1
      simp only [← w2]
      cases t with
      | none => cases h3; simp only [base_none, valueAt_new]; simp
      | some n =>
        simp only [base_some] at w1 w2 ⊢
        rcases deleteSub_api w1 hd with ⟨g1, g2⟩ | ⟨m, r, fl, g1, g2, g3, g4, g5, g6⟩ | ⟨m, g1, g2, g3⟩
        · rw [show opName (Op.deleteSub (V := V) d) = d from rfl, h3] at g2; cases g2
          simp only [Bool.false_eq_true, false_iff, not_exists]
          rintro q v ⟨⟨q', rfl⟩, hv⟩
          rw [valueAt_of_nodeAt_none g1] at hv; cases hv
        · rw [show opName (Op.deleteSub (V := V) d) = d from rfl, h3] at g3; cases g3
          rw [g5]
          constructor
          · rintro ⟨q, v, hv⟩
            exact ⟨ls ++ q, v, ⟨q, rfl⟩, by rw [valueAt_append g1, hv]⟩
          · rintro ⟨q, v, ⟨q', rfl⟩, hv⟩
            exact ⟨q', v, by rw [← valueAt_append g1, hv]⟩
        · rw [show opName (Op.deleteSub (V := V) d) = d from rfl, h3] at g3; cases g3
  fresh := rfl
  inp l o ho := by
    cases o with
    | inplace d v => rfl
    | insert d v => exact ho.2.elim
    | delete d => exact ho.2.elim
    | deleteSub d => exact ho.2.elim

end Domaintree

end Verif.Props
