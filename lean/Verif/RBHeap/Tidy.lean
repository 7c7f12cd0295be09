import Verif.Heap.Tidy
import Verif.RBHeap.History

/-!
# Keys and values of the cells of the red-black trees, whatever the shape of the memory

`Known cmp L d`: the key of the cell is one of the keys in `L` and its value is paired in `L` with an equal key; the only other key
and value are those of the helper node made by `insert`, `inplaceInsert` and `del`.
-/

namespace Verif.RBHeap
open Verif.Heap Verif.Heap.Prog Verif.RB

variable {K V : Type} [Inhabited K] [Inhabited V] {cmp : K → K → Int} {L : List (K × V)}

/-- See above. -/
def Known (cmp : K → K → Int) (L : List (K × V)) (d : RD K V) : Prop :=
  (d.key = default ∨ ∃ v, (d.key, v) ∈ L) ∧ (d.value = default ∨ ∃ k, (k, d.value) ∈ L ∧ cmp d.key k = 0)

theorem Known.more {L L' : List (K × V)} (hs : ∀ x ∈ L, x ∈ L') {d : RD K V} (h : Known cmp L d) : Known cmp L' d :=
  ⟨h.1.imp id fun ⟨v, hv⟩ => ⟨v, hs _ hv⟩, h.2.imp id fun ⟨k, hk, he⟩ => ⟨k, hs _ hk, he⟩⟩

abbrev T (cmp : K → K → Int) (L : List (K × V)) {α : Type} (p : Prog (RD K V) α) : Prop := p.Tidy (Known cmp L) fun _ => True

theorem T_pure {α : Type} (x : α) : T cmp L (pure x) := trivial
theorem T_bind {α β : Type} {p : Prog (RD K V) α} {f : α → Prog (RD K V) β} (hp : T cmp L p) (hf : ∀ x, T cmp L (f x)) : T cmp L (p >>= f) :=
  Tidy.bind hp fun x _ => hf x
theorem T_load {α : Type} (n : Ptr) {f : Cell (RD K V) → Prog (RD K V) α} (hf : ∀ c, Known cmp L c.d → T cmp L (f c)) : T cmp L (load n >>= f) :=
  Tidy.bind (tidy_load n) hf

theorem T_setChld (n : Ptr) (b : Bool) (q : Ptr) : T cmp L (setChld n b q : Prog (RD K V) Unit) :=
  tidy_upd n fun c hc => by cases b <;> exact hc
theorem T_setRed (n : Ptr) (b : Bool) : T cmp L (setRedP n b : Prog (RD K V) Unit) := tidy_upd n fun _ hc => hc
theorem T_redP (n : Ptr) : T cmp L (redP n : Prog (RD K V) Bool) := T_load n fun _ _ => T_pure _
theorem T_isRedP (n : Ptr) : T cmp L (isRedP n : Prog (RD K V) Bool) := by
  cases n with
  | none => exact T_pure false
  | some a => exact T_redP (some a)
theorem T_andP {x : Bool} {k : Prog (RD K V) Bool} (hk : T cmp L k) : T cmp L (andP x k) := Tidy.ite hk (T_pure _)
theorem T_fullCopy (n : Ptr) : T cmp L (fullCopy n : Prog (RD K V) Ptr) := T_load n fun _ hc => T_bind (tidy_new hc) fun _ => T_pure _
theorem T_colorCopy (n : Ptr) (b : Bool) : T cmp L (colorCopy n b : Prog (RD K V) Ptr) :=
  T_load n fun c hc => T_bind (tidy_new (c := { c with d := c.d.col b }) hc) fun _ => T_pure _

theorem T_single (n : Ptr) (dir : Bool) : T cmp L (single n dir : Prog (RD K V) Ptr) :=
  T_load n fun _ _ => T_load _ fun _ _ => T_bind (T_setChld _ _ _) fun _ => T_bind (T_setChld _ _ _) fun _ => T_bind (T_setRed _ _) fun _ =>
    T_bind (T_setRed _ _) fun _ => T_pure _

theorem T_double (n : Ptr) (dir : Bool) : T cmp L (double n dir : Prog (RD K V) Ptr) :=
  T_load n fun _ _ => T_bind (T_single _ _) fun _ => T_bind (T_setChld _ _ _) fun _ => T_single _ _

theorem T_flipCond (n : Ptr) : T cmp L (flipCond n : Prog (RD K V) Bool) :=
  T_load n fun _ _ => Tidy.ite (T_bind (T_redP _) fun _ => T_andP (T_redP _)) (T_pure _)

theorem T_flipCow (n : Ptr) : T cmp L (flipCow n : Prog (RD K V) (Ptr × Ptr)) :=
  T_bind (T_flipCond n) fun _ => Tidy.ite (T_bind (T_setRed _ _) fun _ => T_load _ fun _ _ => T_bind (T_colorCopy _ _) fun _ => T_bind (T_colorCopy _ _) fun _ =>
    T_bind (tidy_upd _ fun _ hc => hc) fun _ => T_pure _) (T_pure _)

theorem T_flipInp (n : Ptr) : T cmp L (flipInp n : Prog (RD K V) Unit) :=
  T_bind (T_flipCond n) fun _ => Tidy.ite (T_bind (T_setRed _ _) fun _ => T_load _ fun _ _ => T_bind (T_setRed _ _) fun _ => T_load _ fun _ _ => T_setRed _ _) (T_pure _)

theorem T_enterCow {key : K} (hk : ∃ v, (key, v) ∈ L) (q cd : Ptr) : T cmp L (enterCow key q cd : Prog (RD K V) _) :=
  Tidy.ite (T_bind (tidy_new ⟨.inr hk, .inl rfl⟩) fun _ => T_pure _)
    (T_bind (Tidy.ite (T_fullCopy _) (T_pure _)) fun _ => T_bind (T_flipCow _) fun _ => T_pure _)

theorem T_enterInp {key : K} (hk : ∃ v, (key, v) ∈ L) (p : Ptr) (dir : Bool) (q : Ptr) : T cmp L (enterInp key p dir q : Prog (RD K V) _) :=
  Tidy.ite (T_bind (tidy_new ⟨.inr hk, .inl rfl⟩) fun _ => T_bind (T_setChld _ _ _) fun _ => T_pure _) (T_bind (T_flipInp _) fun _ => T_pure _)

theorem T_rotP (gp g p n : Ptr) (pd : Bool) : T cmp L (rotP gp g p n pd : Prog (RD K V) _) :=
  T_load _ fun _ _ => T_load _ fun _ _ => Tidy.ite (T_bind (T_single _ _) fun _ => T_bind (T_setChld _ _ _) fun _ => T_pure _)
    (T_bind (T_double _ _) fun _ => T_bind (T_setChld _ _ _) fun _ => T_pure _)

theorem T_fixP (gp g p n : Ptr) (pd : Bool) : T cmp L (fixP gp g p n pd : Prog (RD K V) _) :=
  T_bind (T_redP _) fun _ => T_bind (T_andP (T_isRedP _)) fun _ => Tidy.ite (T_rotP _ _ _ _ _) (T_pure _)

theorem T_reC (b : Bool) (n : Ptr) (c : Ptr × Ptr) : T cmp L (reC b n c : Prog (RD K V) _) := Tidy.ite (T_load _ fun _ _ => T_pure _) (T_pure _)

/-- The loops end at a cell whose key equals the key to insert. -/
def At (cmp : K → K → Int) (L : List (K × V)) (key : K) (s : St) (h : Heap (RD K V)) : Prop :=
  h.All (Known cmp L) ∧ (s.r = 0 → ∃ a c, s.n = some a ∧ h.mem a = some c ∧ cmp c.d.key key = 0)

theorem pwp_T {α β : Type} {p : Prog (RD K V) α} {f : α → Prog (RD K V) β} {Q : β → Heap (RD K V) → Prop} {h : Heap (RD K V)} (hp : T cmp L p)
    (hh : h.All (Known cmp L)) (hf : ∀ x h', h'.All (Known cmp L) → (f x).pwp (Heap.All (Known cmp L)) Q h') : (p >>= f).pwp (Heap.All (Known cmp L)) Q h :=
  pwp_bind.mpr (pwp_mono (Tidy.pwp hp hh) fun x h' hx => hf x h' hx.2)

omit [Inhabited K] [Inhabited V] in
theorem pwp_load {α : Type} {B : Heap (RD K V) → Prop} {n : Ptr} {f : Cell (RD K V) → Prog (RD K V) α} {Q : α → Heap (RD K V) → Prop} {h : Heap (RD K V)} (hB : B h)
    (hf : ∀ a c, n = some a → h.mem a = some c → (f c).pwp B Q h) : (load n >>= f).pwp B Q h := by
  cases n with
  | none => exact hB
  | some a => exact ⟨fun _ => hB, fun c hc => hf a c rfl hc⟩

omit [Inhabited K] [Inhabited V] in
theorem pwp_upd {α : Type} {B : Heap (RD K V) → Prop} {n : Ptr} {g : Cell (RD K V) → Cell (RD K V)} {f : Unit → Prog (RD K V) α} {Q : α → Heap (RD K V) → Prop}
    {h : Heap (RD K V)} (hB : B h) (hf : ∀ a c, n = some a → h.mem a = some c → (f ()).pwp B Q (h.put a (g c))) : (upd n g >>= f).pwp B Q h := by
  cases n with
  | none => exact hB
  | some a => exact ⟨fun _ => hB, fun c hc => hf a c rfl hc⟩

omit [Inhabited K] [Inhabited V] in
theorem pwp_load' {α : Type} {B : Heap (RD K V) → Prop} {a : Addr} {c : Cell (RD K V)} {f : Cell (RD K V) → Prog (RD K V) α} {Q : α → Heap (RD K V) → Prop}
    {h : Heap (RD K V)} (hc : h.mem a = some c) (hf : (f c).pwp B Q h) : (load (some a) >>= f).pwp B Q h :=
  ⟨fun hm => by rw [hc] at hm; (cases hm), fun c' hc' => by rw [hc] at hc'; cases hc'; exact hf⟩

omit [Inhabited K] [Inhabited V] in
theorem pwp_upd' {α : Type} {B : Heap (RD K V) → Prop} {a : Addr} {c : Cell (RD K V)} {g : Cell (RD K V) → Cell (RD K V)} {f : Unit → Prog (RD K V) α}
    {Q : α → Heap (RD K V) → Prop} {h : Heap (RD K V)} (hc : h.mem a = some c) (hf : (f ()).pwp B Q (h.put a (g c))) : (upd (some a) g >>= f).pwp B Q h :=
  ⟨fun hm => by rw [hc] at hm; (cases hm), fun c' hc' => by rw [hc] at hc'; cases hc'; exact hf⟩

theorem insIter_at {key : K} (hk : ∃ v, (key, v) ∈ L) (s : St) (c : Ptr × Ptr) {h : Heap (RD K V)} (hh : h.All (Known cmp L)) :
    (insIter cmp key s c).pwp (Heap.All (Known cmp L)) (fun x h' => At cmp L key x.1 h') h := by
  unfold insIter
  refine pwp_load hh fun _ _ _ _ => pwp_T (T_enterCow hk _ _) hh fun _ _ hh => pwp_T (T_setChld _ _ _) hh fun _ _ hh => pwp_T (T_fixP _ _ _ _ _) hh fun _ _ hh =>
    pwp_T (T_reC _ _ _) hh fun _ _ hh => pwp_load hh fun a c ha hc => ?_
  exact ⟨hh, fun hr => ⟨a, c, ha, hc, hr⟩⟩

theorem insLoopP_at {key : K} (hk : ∃ v, (key, v) ∈ L) (f : Nat) (s : St) (c : Ptr × Ptr) {h : Heap (RD K V)} (hh : At cmp L key s h) :
    (insLoopP cmp key f s c).pwp (Heap.All (Known cmp L)) (fun x h' => At cmp L key x h' ∧ x.r = 0) h := by
  induction f generalizing s c h with
  | zero => exact hh.1
  | succ f ih =>
    unfold insLoopP
    split
    · exact pwp_bind.mpr (pwp_mono (insIter_at hk s c hh.1) fun x h' hx => ih x.1 x.2 hx)
    · rename_i hr
      exact ⟨hh, Decidable.of_not_not hr⟩

theorem inpIter_at {key : K} (hk : ∃ v, (key, v) ∈ L) (s : St) {h : Heap (RD K V)} (hh : h.All (Known cmp L)) :
    (inpIter cmp key s).pwp (Heap.All (Known cmp L)) (fun x h' => At cmp L key x h') h := by
  unfold inpIter
  refine pwp_load hh fun _ _ _ _ => pwp_T (T_enterInp hk _ _ _) hh fun _ _ hh => pwp_T (T_fixP _ _ _ _ _) hh fun _ _ hh => pwp_load hh fun a c ha hc => ?_
  exact ⟨hh, fun hr => ⟨a, c, ha, hc, hr⟩⟩

theorem inpLoopP_at {key : K} (hk : ∃ v, (key, v) ∈ L) (f : Nat) (s : St) {h : Heap (RD K V)} (hh : At cmp L key s h) :
    (inpLoopP cmp key f s).pwp (Heap.All (Known cmp L)) (fun x h' => At cmp L key x h' ∧ x.r = 0) h := by
  induction f generalizing s h with
  | zero => exact hh.1
  | succ f ih =>
    unfold inpLoopP
    split
    · exact pwp_bind.mpr (pwp_mono (inpIter_at hk s hh.1) fun x h' hx => ih x hx)
    · rename_i hr
      exact ⟨hh, Decidable.of_not_not hr⟩

theorem finish_known {key : K} {value : V} (hk : (key, value) ∈ L) (root : Ptr) (s : St) {h : Heap (RD K V)} (hh : At cmp L key s h) (hr : s.r = 0) :
    (finish root s.n value).pwp (Heap.All (Known cmp L)) (fun _ h' => h'.All (Known cmp L)) h := by
  obtain ⟨a, c, ha, hc, he⟩ := hh.2 hr
  unfold finish
  refine pwp_upd hh.1 fun a' c' ha' hc' => ?_
  rw [ha] at ha'; cases ha'
  rw [hc] at hc'; cases hc'
  have hg := hh.1 a c hc
  have hh' : (h.put a { c with d := { c.d with value := value } }).All (Known cmp L) := hh.1.put ⟨hg.1, .inr ⟨key, hk, he⟩⟩
  exact pwp_mono (Tidy.pwp (T_load (cmp := cmp) (L := L) root fun rc _ => T_bind (T_setRed rc.c1 false) fun _ => T_pure rc.c1) hh') fun _ _ hx => hx.2

theorem insertP_known {key : K} {value : V} (hrefl : cmp key key = 0) (hk : (key, value) ∈ L) (f : Nat) (n : Ptr) {h : Heap (RD K V)} (hh : h.All (Known cmp L)) :
    (insertP cmp f n key value).pwp (Heap.All (Known cmp L)) (fun _ h' => h'.All (Known cmp L)) h := by
  unfold insertP
  split
  · exact pwp_T (tidy_new ⟨.inr ⟨_, hk⟩, .inr ⟨key, hk, hrefl⟩⟩) hh fun _ _ hh => hh
  · refine pwp_T (tidy_new ⟨.inl rfl, .inl rfl⟩) hh fun a h' hh => ?_
    exact pwp_bind.mpr (pwp_mono (insLoopP_at ⟨_, hk⟩ f _ _ ⟨hh, fun hr => absurd (show (-1 : Int) = 0 from hr) (by decide)⟩) fun s h' hs => finish_known hk _ s hs.1 hs.2)

theorem inplaceInsertP_known {key : K} {value : V} (hrefl : cmp key key = 0) (hk : (key, value) ∈ L) (f : Nat) (n : Ptr) {h : Heap (RD K V)}
    (hh : h.All (Known cmp L)) : (inplaceInsertP cmp f n key value).pwp (Heap.All (Known cmp L)) (fun _ h' => h'.All (Known cmp L)) h := by
  unfold inplaceInsertP
  split
  · exact pwp_T (tidy_new ⟨.inr ⟨_, hk⟩, .inr ⟨key, hk, hrefl⟩⟩) hh fun _ _ hh => hh
  · refine pwp_T (tidy_new ⟨.inl rfl, .inl rfl⟩) hh fun a h' hh => ?_
    exact pwp_bind.mpr (pwp_mono (inpLoopP_at ⟨_, hk⟩ f _ ⟨hh, fun hr => absurd (show (-1 : Int) = 0 from hr) (by decide)⟩) fun s h' hs => finish_known hk _ s hs.1 hs.2)

/-! ## del -/

theorem T_noRedChild (s : Ptr) : T cmp L (noRedChild s : Prog (RD K V) Bool) :=
  T_load _ fun _ _ => T_bind (T_isRedP _) fun _ => T_load _ fun _ _ => T_andP (T_bind (T_isRedP _) fun _ => T_pure _)

theorem T_borrowP (g p n s : Ptr) (b : Bool) : T cmp L (borrowP g p n s b : Prog (RD K V) Unit) := by
  unfold borrowP
  refine T_load _ fun _ _ => T_load _ fun _ _ => T_bind (T_isRedP _) fun y => ?_
  have hr : ∀ q : Bool, T cmp L (do
      setRedP n true
      let cg ← load g
      setRedP (cg.child q) true
      let cx ← load (cg.child q)
      setRedP cx.c0 false
      let cx ← load (cg.child q)
      setRedP cx.c1 false : Prog (RD K V) Unit) := fun q =>
    T_bind (T_setRed _ _) fun _ => T_load _ fun _ _ => T_bind (T_setRed _ _) fun _ => T_load _ fun _ _ => T_bind (T_setRed _ _) fun _ => T_load _ fun _ _ => T_setRed _ _
  split
  · exact T_bind (T_fullCopy _) fun _ => T_bind (T_setChld _ _ _) fun _ => T_bind (T_double _ _) fun _ => T_bind (T_setChld _ _ _) fun _ => hr _
  · exact T_bind (T_fullCopy _) fun _ => T_bind (T_setChld _ _ _) fun _ => T_bind (T_single _ _) fun _ => T_bind (T_setChld _ _ _) fun _ => hr _

theorem T_siblingP (g p n : Ptr) (b : Bool) : T cmp L (siblingP g p n b : Prog (RD K V) Unit) :=
  T_load _ fun _ _ => Tidy.ite (T_bind (T_fullCopy _) fun _ => T_bind (T_setChld _ _ _) fun _ => T_bind (T_noRedChild _) fun _ =>
    Tidy.ite (T_bind (T_setRed _ _) fun _ => T_bind (T_setRed _ _) fun _ => T_setRed _ _) (T_borrowP _ _ _ _ _)) (T_pure _)

theorem T_delFixP (g p n : Ptr) (b d : Bool) : T cmp L (delFixP g p n b d : Prog (RD K V) Ptr) :=
  T_load _ fun _ _ => T_bind (T_andP (T_bind (T_isRedP _) fun _ => T_pure _)) fun _ => Tidy.ite (T_bind (T_isRedP _) fun _ => Tidy.ite
    (T_bind (T_fullCopy _) fun _ => T_bind (T_setChld _ _ _) fun _ => T_bind (T_single _ _) fun _ => T_bind (T_setChld _ _ _) fun _ => T_load _ fun _ _ => T_pure _)
    (T_bind (T_siblingP _ _ _ _) fun _ => T_pure _)) (T_pure _)

theorem T_delIter (key : K) (s : DSt) : T cmp L (delIter cmp key s : Prog (RD K V) DSt) :=
  T_load _ fun _ _ => T_bind (T_fullCopy _) fun _ => T_bind (T_setChld _ _ _) fun _ => T_load _ fun _ _ => T_load _ fun _ _ =>
    T_bind (T_delFixP _ _ _ _ _) fun _ => T_pure _

theorem T_delLoopP (key : K) (f : Nat) (s : DSt) : T cmp L (delLoopP cmp key f s : Prog (RD K V) DSt) := by
  induction f generalizing s with
  | zero => trivial
  | succ f ih => exact T_load _ fun _ _ => Tidy.ite (T_bind (T_delIter _ _) fun s => ih s) (T_pure _)

theorem delEndP_known (s : DSt) {h : Heap (RD K V)} (hh : h.All (Known cmp L)) : (delEndP s).pwp (Heap.All (Known cmp L)) (fun _ h' => h'.All (Known cmp L)) h := by
  unfold delEndP
  split
  · refine pwp_load hh fun n cn hn hcn => pwp_upd hh fun t ct ht hct => ?_
    rw [hn, ht]
    obtain ⟨cn', hcn', hv⟩ : ∃ cn', (h.put t { ct with d := { ct.d with key := cn.d.key } }).mem n = some cn' ∧ cn'.d.value = cn.d.value := by
      rw [Heap.mem_put]
      split
      · rename_i e
        subst e
        rw [hct] at hcn; cases hcn
        exact ⟨_, rfl, rfl⟩
      · exact ⟨cn, hcn, rfl⟩
    refine pwp_load' hcn' (pwp_upd' (c := { ct with d := { ct.d with key := cn.d.key } }) (by rw [Heap.mem_put, if_pos rfl]) ?_)
    rw [← hn]
    refine pwp_mono (Tidy.pwp (T_load (cmp := cmp) (L := L) s.p fun cp _ => T_load s.n fun cn _ => T_setChld s.p _ _) ?_) fun _ _ hx => hx.2
    intro x c hx
    rw [Heap.mem_put] at hx
    split at hx
    · cases hx
      have := hh n cn hcn
      exact ⟨this.1, by simpa only [hv] using this.2⟩
    · rename_i hne
      rw [Heap.mem_put, if_neg hne] at hx
      exact hh x c hx
  · exact hh

theorem delP_known (f : Nat) (n : Ptr) (key : K) {h : Heap (RD K V)} (hh : h.All (Known cmp L)) :
    (delP cmp f n key).pwp (Heap.All (Known cmp L)) (fun _ h' => h'.All (Known cmp L)) h := by
  unfold delP
  refine pwp_T (tidy_new ⟨.inl rfl, .inl rfl⟩) hh fun a h' hh => pwp_T (T_delLoopP _ _ _) hh fun s h' hh => ?_
  refine pwp_bind.mpr (pwp_mono (delEndP_known s hh) fun _ h' hh => ?_)
  exact pwp_mono (Tidy.pwp (T_load (cmp := cmp) (L := L) (some a) fun rc _ => Tidy.ite (T_bind (T_setRed _ _) fun _ => T_pure _) (T_pure _)) hh) fun _ _ hx => hx.2

/-! ## readers -/

theorem getP_known {key : K} (f : Nat) (n : Ptr) :
    (getP cmp f n key).Tidy (Known cmp L) fun r => ∀ v, r = some v → ∃ d, Known cmp L d ∧ d.value = v ∧ cmp d.key key = 0 := by
  induction f generalizing n with
  | zero => trivial
  | succ f ih =>
    unfold getP
    split
    · refine Tidy.bind (tidy_load n) fun c hc => ?_
      dsimp only
      split
      · rename_i he
        exact fun v hv => ⟨c.d, hc, Option.some.inj hv, he⟩
      · exact ih _
    · exact fun v hv => absurd hv (by simp)

theorem enumerateP_known (f : Nat) (n : Ptr) :
    (enumerateP f n : Prog (RD K V) _).Tidy (Known cmp L) fun l => ∀ x ∈ l, ∃ d, Known cmp L d ∧ d.value = x.2 ∧ d.key = x.1 := by
  induction f generalizing n with
  | zero => trivial
  | succ f ih =>
    unfold enumerateP
    split
    · intro x hx; cases hx
    · refine Tidy.bind (tidy_load n) fun c hc => Tidy.bind (ih _) fun l hl => Tidy.bind (ih _) fun r hr => ?_
      intro x hx
      rw [List.mem_append, List.mem_cons] at hx
      rcases hx with hx | hx | hx
      · exact hl x hx
      · subst hx; exact ⟨c.d, hc, rfl, rfl⟩
      · exact hr x hx

/-! ## readers on a memory with a cycle -/

omit [Inhabited K] [Inhabited V] in
/-- If the comparisons lead from every node of `S` to a node of `S`, Get never ends there. -/
theorem getP_loops {key : K} {h : Heap (RD K V)} {S : Addr → Prop}
    (hS : ∀ a, S a → ∃ c b, h.mem a = some c ∧ cmp c.d.key key ≠ 0 ∧ c.child (decide (cmp c.d.key key < 0)) = some b ∧ S b) (f : Nat) {a : Addr} (ha : S a) :
    (getP cmp f (some a) key).run h = .error .fuel := by
  induction f generalizing a with
  | zero => rfl
  | succ f ih =>
    obtain ⟨c, b, hc, hn, hb, hs⟩ := hS a ha
    have e : (getP cmp (f + 1) (some a) key).run h = (getP cmp f (c.child (decide (cmp c.d.key key < 0))) key).run h := by
      rw [getP, if_pos (by simp), run_load hc]
      show (if cmp c.d.key key = 0 then _ else getP cmp f (c.child (decide (cmp c.d.key key < 0))) key : Prog (RD K V) (Option V)).run h = _
      rw [if_neg hn]
    rw [e, hb]
    exact ih hs

omit [Inhabited K] [Inhabited V] in
/-- If every node of `S` has a child in `S` and no pointer leads out of a part `C` of the memory, Enumerate never ends there. -/
theorem enumerateP_loops {h : Heap (RD K V)} {S C : Addr → Prop} (hS : ∀ a, S a → ∃ c b, h.mem a = some c ∧ (c.c0 = some b ∨ c.c1 = some b) ∧ S b)
    (hcl : ∀ a, C a → ∃ c, h.mem a = some c ∧ ∀ b, c.c0 = some b ∨ c.c1 = some b → C b) (f : Nat) {a : Addr} (ha : S a) (hC : C a) :
    (enumerateP f (some a)).run h = .error .fuel := by
  have key : ∀ (f : Nat) (n : Ptr), (∀ a, n = some a → C a) →
      ((enumerateP f n).run h = .error .fuel ∨ ∃ l, (enumerateP f n).run h = .ok (l, h)) ∧ (∀ a, n = some a → S a → (enumerateP f n).run h = .error .fuel) := by
    intro f
    induction f with
    | zero => exact fun n _ => ⟨.inl rfl, fun _ _ _ => rfl⟩
    | succ f ih =>
      intro n hn
      cases n with
      | none => exact ⟨.inr ⟨[], rfl⟩, fun a ha => by cases ha⟩
      | some a =>
        obtain ⟨c, hc, hch⟩ := hcl a (hn a rfl)
        obtain ⟨l1, l2⟩ := ih c.c0 fun b hb => hch b (.inl hb)
        obtain ⟨r1, r2⟩ := ih c.c1 fun b hb => hch b (.inr hb)
        have e : (enumerateP (f + 1) (some a)).run h = (enumerateP f c.c0 >>= fun l => enumerateP f c.c1 >>= fun r =>
            pure (l ++ (c.d.key, c.d.value) :: r) : Prog (RD K V) (List (K × V))).run h := by
          rw [enumerateP, if_neg (by simp), run_load hc]
        simp only [e, run_bind]
        refine ⟨?_, ?_⟩
        · rcases l1 with l1 | ⟨l, l1⟩
          · simp only [l1]; exact .inl trivial
          · simp only [l1]
            rcases r1 with r1 | ⟨r, r1⟩
            · simp only [r1]; exact .inl trivial
            · simp only [r1]; exact .inr ⟨_, rfl⟩
        · intro a' ha' hs
          cases ha'
          obtain ⟨c', b, hc', hb, hsb⟩ := hS a hs
          rw [hc] at hc'; cases hc'
          rcases hb with hb | hb
          · simp only [l2 b hb hsb]
          · rcases l1 with l1 | ⟨l, l1⟩
            · simp only [l1]
            · simp only [l1, r2 b hb hsb]
  exact (key f (some a) fun b hb => by cases hb; exact hC).2 a rfl ha

/-! ## histories -/

/-- The pairs inserted by a step. -/
def pairsOf : SOp (KOp K V) × Bool → List (K × V)
  | (.cow _ (.insert k v), _) => [(k, v)]
  | (.inp _ (.insert k v), _) => [(k, v)]
  | _ => []

theorem cow_known {f : Nat} (hrefl : ∀ k, cmp k k = 0) {i : Nat} {o : KOp K V} {b : Bool} (hL : ∀ x ∈ pairsOf (.cow i o, b), x ∈ L) (r : Ptr) (h : Heap (RD K V))
    (hh : h.All (Known cmp L)) : ((rbImpl cmp f).toO.cow o r).pwp (Heap.All (Known cmp L)) (fun _ h' => h'.All (Known cmp L)) h := by
  cases o with
  | insert k v => exact insertP_known (hrefl k) (hL (k, v) (by simp [pairsOf])) f r hh
  | delete k => exact pwp_bind.mpr (pwp_mono (delP_known f r k hh) fun _ _ hx => hx)

theorem inp_known {f : Nat} (hrefl : ∀ k, cmp k k = 0) {i : Nat} {o : KOp K V} {b : Bool} (hL : ∀ x ∈ pairsOf (.inp i o, b), x ∈ L) (r : Ptr) (h : Heap (RD K V))
    (hh : h.All (Known cmp L)) : ((rbImpl cmp f).toO.inp o r).pwp (Heap.All (Known cmp L)) (fun _ h' => h'.All (Known cmp L)) h := by
  cases o with
  | insert k v => exact inplaceInsertP_known (hrefl k) (hL (k, v) (by simp [pairsOf])) f r hh
  | delete k => exact hh

omit [Inhabited K] [Inhabited V] in
theorem mem_pairs {ops : List (SOp (KOp K V) × Bool)} {k : K} {v : V} (h : (k, v) ∈ ops.flatMap pairsOf) :
    ∃ i b, (SOp.cow i (.insert k v), b) ∈ ops ∨ (SOp.inp i (.insert k v), b) ∈ ops := by
  obtain ⟨⟨op, b⟩, ho, hk⟩ := List.mem_flatMap.1 h
  cases op with
  | fresh => cases hk
  | drop i => cases hk
  | cow i o =>
    cases o with
    | delete k' => cases hk
    | insert k' v' => rw [pairsOf, List.mem_singleton] at hk; cases hk; exact ⟨i, b, .inl ho⟩
  | inp i o =>
    cases o with
    | delete k' => cases hk
    | insert k' v' => rw [pairsOf, List.mem_singleton] at hk; cases hk; exact ⟨i, b, .inr ho⟩

theorem answer_known {α : Type} {f : Nat} (hrefl : ∀ k, cmp k k = 0) {ops : List (SOp (KOp K V) × Bool)} {s : OStore (RD K V) Ptr}
    (he : OStore.init.execR (rbImpl cmp f).toO ops = some s) {p : Prog (RD K V) α} {P : α → Prop} (hp : p.Tidy (Known cmp (ops.flatMap pairsOf)) P) {x : α}
    (hx : answer p s.heap = some x) : P x := by
  have hs : s.heap.All (Known cmp (ops.flatMap pairsOf)) := by
    refine OStore.execR_all (I := (rbImpl cmp f).toO) (fun h hh => hh) ?_ ?_ (s := OStore.init) (fun a c hc => by cases hc) he
    · exact fun i o b hm r h hh => cow_known (i := i) (b := b) hrefl (fun x hx => List.mem_flatMap.2 ⟨_, hm, hx⟩) r h hh
    · exact fun i o b hm r h hh => inp_known (i := i) (b := b) hrefl (fun x hx => List.mem_flatMap.2 ⟨_, hm, hx⟩) r h hh
  unfold answer at hx
  split at hx
  · rename_i y h' hr
    cases hx
    exact (pwp_run (Tidy.pwp hp hs) hr).1
  · cases hx

end Verif.RBHeap
