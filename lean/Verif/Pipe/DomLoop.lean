import Verif.Pipe.Loops

/-!
# Loops over Enumerate of dltree and domaintree
-/

namespace Verif.Pipe
open Verif.Heap Verif.Heap.Prog Verif.Heap.ATree Verif.RB Verif.RBHeap Verif.DLHeap Verif.Domain Verif.DL

section Label
variable {V E B : Type} (M : DLMem V E)

/-- Key, value and children of a dltree node. -/
def dlFld (c : Cell E) : Option ((Bytes × V) × Ptr × Ptr) := (M.kR.cell c).map fun c => ((c.d.key, c.d.value), c.c0, c.c1)

/-- dltree/dltree.go:79-94 `Enumerate`, 96-111 `RawEnumerate`. -/
def dlGen (item : Bytes × V → Option B) (f : Nat) : Ptr → Gen (Cell E) B
  | none => .done
  | some t => .read t fun c => match M.kT.cell c with
    | none => .fail
    | some c => rbWalk (dlFld M) item f c.c0 .done

/-- `Pair{Key: domain.MakeHumanReadableLabel(n.key), Value: n.value}`. dltree/node.go:315. -/
def human (p : Bytes × V) : Option (Bytes × V) := (MakeHumanReadableLabel p.1).map fun k => (k, p.2)

variable {M}

theorem dlGen_out {m f : Nat} {h : Heap E} {F : Addr → Prop} {t : Ptr} {A : ATree (RD Bytes V)} (hL : LRep M m h t A) (hF : ∀ x, LFoot t A x → F x)
    (hf : tall m < f) {item : Bytes × V → Option B} {o : Bytes × V → B} (ho : ∀ p ∈ RB.enumerate (erase A), item p = some (o p)) :
    ∃ n, (dlGen M item f t).out (pinOf id h F) [] = some ((RB.enumerate (erase A)).map o, n) := by
  cases t with
  | none =>
    have : A = .nil := hL.cell
    subst this
    exact emits_id.out
  | some t =>
    have hp : Pinned (dlFld M) (fun d : RD Bytes V => (d.key, d.value)) (pinOf id h F) A := by
      refine pinned_of_rep M.kR (fun c => ?_) hL.rep fun a ha => hF a (.inr ha)
      simp [dlFld, M.kR.cell_map]
    have hc : M.kT.cell (⟨M.kT.inj (), ptr A, none⟩ : Cell E) = some ⟨(), ptr A, none⟩ := M.kT.cell_map ⟨(), ptr A, none⟩
    rw [← inorder_enumerate] at ho ⊢
    have e : Emits (pinOf id h F) (fun k => Gen.read t fun c => match M.kT.cell c with
        | none => .fail
        | some c => rbWalk (dlFld M) item f c.c0 k) ((inorder A).map fun d => o (d.key, d.value)) := by
      refine emits_read' (pinOf_some (hF t (.inl rfl)) hL.cell.1) ?_
      simp only [id, hc]
      exact rbWalk_emits (Nat.lt_of_le_of_lt hL.height hf) hp fun d hd => ho _ (List.mem_map_of_mem hd)
    obtain ⟨n, hn⟩ := e.out
    exact ⟨n, by rw [List.map_map]; exact hn⟩

theorem humanL_some {l r : List (Bytes × V)} (h : humanL l = some r) : ∃ o : Bytes × V → Bytes × V, (∀ p ∈ l, human p = some (o p)) ∧ r = l.map o := by
  refine ⟨fun p => (human p).getD p, ?_⟩
  induction l generalizing r with
  | nil => cases h; simp
  | cons p l ih =>
    obtain ⟨k, v⟩ := p
    simp only [humanL] at h
    split at h
    · rename_i k' l' e1 e2
      cases h
      obtain ⟨i1, i2⟩ := ih e2
      have e : human (k, v) = some (k', v) := by simp [human, e1]
      refine ⟨?_, by rw [List.map_cons, e, ← i2]; rfl⟩
      intro p hp
      rcases List.mem_cons.1 hp with rfl | hp
      · simp only [e, Option.getD_some]
      · exact i1 p hp
    · cases h

end Label

section Dltree
open Verif.Props
variable {V : Type} [Inhabited V]

/-- A loop over `RawEnumerate` of dltree. -/
def dlRawLoop (f rounds : Nat) (V : Type) : Loop (LD V) Ptr (Bytes × V) (Bytes × V) where
  gen := dlGen lm some f
  item b := pure b
  rounds := rounds

/-- A loop over `Enumerate` of dltree. -/
def dlLoop (f rounds : Nat) (V : Type) : Loop (LD V) Ptr (Bytes × V) (Bytes × V) where
  gen := dlGen lm human f
  item b := pure b
  rounds := rounds

theorem enum_size {K W : Type} (t : RTree K W) : (RB.enumerate t).length = t.size := by
  induction t with
  | nil => rfl
  | node d l r ihl ihr => simp only [RB.enumerate, List.length_append, List.length_cons, BTree.size, ihl, ihr]; omega

theorem dlRawLoop_lawful (st : Bool) {f n rounds : Nat} (hf : 2 * n + 3 ≤ f) (hr : n < rounds) :
    (dlRawLoop f rounds V).Lawful (dlImpl st f) (fun l es => LabelRight .list l (.list es) ∧ (DL.run (DLHeap.start0 st) l).map RawEnumerate = some es) n where
  ok := by
    intro h r l F hl ho
    have hread := labelRead_ok hf .list h r l F hl ho
    obtain ⟨h0, A, hL, hrun, hF⟩ := ho
    obtain ⟨k, hk⟩ := dlGen_out (item := some) (o := id) hL (fun x hx => (hF x).2 hx) (f := f) (tall_lt (by omega)) fun _ _ => rfl
    rw [List.map_id] at hk
    refine ⟨_, _, k, hk, ?_, ⟨?_, by rw [hrun, Option.map_some, RawEnumerate, hL.rootOf]⟩, rfl, ?_⟩
    · rw [enum_size, DLHeap.erase_size]
      exact Nat.lt_of_le_of_lt (Nat.le_trans hL.size hl) hr
    · have h2 : wp (fun _ => False) (labelRead f .list r) (fun x h' => x = .list (RB.enumerate (erase A))) h := by
        simp only [labelRead, wp_bind, wp_pure]
        exact wp_conseq (RawEnumerateP_spec hL (tall_lt (by omega))) fun x h' hx => by rw [hx.2]
      obtain ⟨x, h', e1, e2, _⟩ := wp_run hread
      obtain ⟨x', h'', e3, e4, _⟩ := wp_run h2
      rw [e1] at e3
      cases e3
      rw [← e4]; exact e2.2
    · intro j b e hb he h' _
      rw [hb] at he
      cases he
      exact ⟨rfl, rfl⟩

/-- Histories with only some of the calls. -/
def restrict {D O R : Type} (I : OImpl D O R) (ok : O → Prop) : OImpl D O R where
  fresh := I.fresh
  cow := I.cow
  inp := I.inp
  cowOk l o := I.cowOk l o ∧ ok o
  inpOk l o := I.inpOk l o ∧ ok o
  Obj h r l F := I.Obj h r l F ∧ ∀ o ∈ l, ok o

theorem restrict_lawful {D O R : Type} {I : OImpl D O R} {ok : O → Prop} {n : Nat} (hI : I.Lawful n) : (restrict I ok).Lawful n where
  fresh_ok h := wp_conseq (hI.fresh_ok h) fun _ _ ⟨F, a, b⟩ => ⟨F, ⟨a, fun _ h => by simp at h⟩, b⟩
  lt h := hI.lt h.1
  frame h h1 h2 := ⟨hI.frame h.1 h1 h2, h.2⟩
  cow_ok l o r h F hl hc ho := wp_conseq (hI.cow_ok l o r h F hl hc.1 ho.1) fun _ _ ⟨F', a, b⟩ =>
    ⟨F', ⟨a, fun x hx => (List.mem_cons.1 hx).elim (fun e => e ▸ hc.2) (ho.2 x)⟩, b⟩
  inp_ok l o r h F hl hc ho := wp_conseq (hI.inp_ok l o r h F hl hc.1 ho.1) fun _ _ ⟨F', a, b⟩ =>
    ⟨F', ⟨a, fun x hx => (List.mem_cons.1 hx).elim (fun e => e ▸ hc.2) (ho.2 x)⟩, b⟩

/-- A call that does not store a label of more than 63 bytes. -/
def Short (o : DL.Op V) : Prop := ∀ l v, OpMeans o (.insert l v) → l.length ≤ 63

omit [Inhabited V] in
theorem short_last {ps : List (DL.Op V × KOp Bytes V)} (hp : ∀ p ∈ ps, OpMeans p.1 p.2) (hs : ∀ p ∈ ps, Short p.1) (l : Bytes) :
    lastWrite' (ps.map Prod.snd) l ≠ none → l.length ≤ 63 := by
  induction ps with
  | nil => intro h; exact absurd rfl h
  | cons p ps ih =>
    obtain ⟨o, k⟩ := p
    intro h
    have ih := ih (fun p h => hp p (by simp [h])) fun p h => hs p (by simp [h])
    cases k with
    | insert k v =>
      simp only [List.map_cons, lastWrite'] at h
      split at h
      · rename_i e
        subst e
        exact hs (o, .insert k v) (by simp) k v (hp (o, .insert k v) (by simp))
      · exact ih h
    | delete k =>
      simp only [List.map_cons, lastWrite'] at h
      split at h
      · exact absurd rfl h
      · exact ih h

omit [Inhabited V] in
theorem pair_means {l : List (DL.Op V)} (h : ∀ o ∈ l, ∃ k, OpMeans o k) : ∃ ps : List (DL.Op V × KOp Bytes V), ps.map Prod.fst = l ∧ ∀ p ∈ ps, OpMeans p.1 p.2 := by
  induction l with
  | nil => exact ⟨[], rfl, by simp⟩
  | cons o l ih =>
    obtain ⟨k, hk⟩ := h o (by simp)
    obtain ⟨ps, h1, h2⟩ := ih fun o ho => h o (by simp [ho])
    exact ⟨(o, k) :: ps, by simp [h1], fun p hp => (List.mem_cons.1 hp).elim (fun e => e ▸ hk) (h2 p)⟩

/-- What `Enumerate` must list: the entries of `RawEnumerate` with the labels as text. -/
def TextRight (ops : List (DL.Op V)) (es : List (Bytes × V)) : Prop :=
  ∃ raw, LabelRight .list ops (.list raw) ∧ es.map (fun p => (some p.1, p.2)) = raw.map fun p => (MakeHumanReadableLabel p.1, p.2)

theorem dlLoop_lawful (st : Bool) {f n rounds : Nat} (hf : 2 * n + 3 ≤ f) (hr : n < rounds) :
    (dlLoop f rounds V).Lawful (restrict (dlImpl st f) Short) (fun l es => TextRight l es ∧ (DL.run (DLHeap.start0 st) l).bind DL.Enumerate = some es) n where
  ok := by
    rintro h r l F hl ⟨ho, hs⟩
    have hread := labelRead_ok hf .list h r l F hl ho
    obtain ⟨h0, A, hL, hrun, hF⟩ := ho
    obtain ⟨ps, rfl, hp⟩ := pair_means h0
    obtain ⟨_, a2, a3, a4⟩ := dl_run_facts hp hrun
    obtain ⟨ys, b1, b2⟩ := a4 (short_last hp fun p hp => hs p.1 (List.mem_map_of_mem hp))
    have b0 := b1
    rw [DL.Enumerate, hL.rootOf, ← humanL_eq] at b1
    rw [RawEnumerate, hL.rootOf] at a2 a3 b2
    obtain ⟨o, ho1, rfl⟩ := humanL_some b1
    obtain ⟨k, hk⟩ := dlGen_out hL (fun x hx => (hF x).2 hx) (f := f) (tall_lt (by omega)) ho1
    refine ⟨_, _, k, hk, ?_, ⟨⟨RB.enumerate (erase A), ?_, b2⟩, by rw [hrun]; exact b0⟩, rfl, ?_⟩
    · rw [List.length_map, enum_size, DLHeap.erase_size]
      exact Nat.lt_of_le_of_lt (Nat.le_trans hL.size hl) hr
    · have h2 : wp (fun _ => False) (labelRead f .list r) (fun x h' => x = .list (RB.enumerate (erase A))) h := by
        simp only [labelRead, wp_bind, wp_pure]
        exact wp_conseq (RawEnumerateP_spec hL (tall_lt (by omega))) fun x h' hx => by rw [hx.2]
      obtain ⟨x, h', e1, e2, _⟩ := wp_run hread
      obtain ⟨x', h'', e3, e4, _⟩ := wp_run h2
      rw [e1] at e3
      cases e3
      rw [← e4]; exact e2.2
    · intro j b e hb he h' _
      rw [hb] at he
      cases he
      exact ⟨rfl, rfl⟩

end Dltree

section Domaintree
open Verif.DomTree Verif.DomHeap Verif.Props
variable {V : Type}

/-- What goes through the channels: pairs of a label and a node from dltree's goroutines, pairs of a domain and a value from
domaintree's. -/
inductive DItem (V : Type) where
  | item (key : Bytes) (p : Ptr)
  | pair (key : Bytes) (v : V)

/-- domaintree/domaintree.go:195-215 `enumerate`; the first number bounds the depth. -/
def domWalk (f rounds : Nat) : Nat → Bytes → Ptr → Gen (Cell (DD V)) (DItem V) → Gen (Cell (DD V)) (DItem V)
  | 0, _, _, _ => .fail
  | _ + 1, _, none, k => k
  | j + 1, s, some a, k =>
    let loop := .read a fun c => match kN.cell c with
      | none => .fail
      | some c => Gen.rangeGo (dlGen dm (fun p => (human p).map fun p => .item p.1 p.2) f c.c0) (fun
          | .pair _ _, _ => .fail
          | .item key p, k => match p with
            | none => .fail
            | some c => domWalk f rounds j (subKey key s) (some c) k) rounds k
    .read a fun c => match kN.cell c with
      | none => .fail
      | some c => match c.d with
        | some v => .send (.pair s v) loop
        | none => loop

/-- A loop over `Enumerate` of domaintree (domaintree/domaintree.go:78-88). -/
def domLoop (f rounds : Nat) (V : Type) : Loop (DD V) Ptr (DItem V) (Bytes × V) where
  gen r := domWalk f rounds f [] r .done
  item
    | .pair k v => pure (k, v)
    | .item _ _ => .stop .panic
  rounds := rounds

/-- The pair as it goes through the channel. -/
def toDItem (p : Bytes × V) : DItem V := .pair p.1 p.2

variable {m f rounds : Nat} {h : Heap (DD V)} {F : Addr → Prop}

theorem concatAll_split {ι α : Type} {g : ι → Option (List α)} {l : List ι} {r : List α} (hr : concatAll (l.map g) = some r) :
    ∃ o : ι → List α, (∀ x ∈ l, g x = some (o x)) ∧ r = l.flatMap o := by
  refine ⟨fun x => (g x).getD [], ?_⟩
  induction l generalizing r with
  | nil => cases hr; simp
  | cons x l ih =>
    simp only [List.map_cons, concatAll, Option.bind_eq_some_iff, Option.map_eq_some_iff] at hr
    obtain ⟨a, ha, b, hb, rfl⟩ := hr
    obtain ⟨i1, i2⟩ := ih hb
    refine ⟨?_, by rw [List.flatMap_cons, ha, ← i2]; rfl⟩
    intro y hy
    rcases List.mem_cons.1 hy with rfl | hy
    · simp only [ha, Option.getD_some]
    · exact i1 y hy

theorem domWalk_emits (hf : tall m < f) (hr : m < rounds) : ∀ (k j : Nat) (s : Bytes) (a : Addr) (n : Node V) (G : Addr → Prop) (xs : List (Bytes × V)), k ≤ j → NRep m h k a n G →
    (∀ x, G x → F x) → enumN s n = some xs → Emits (pinOf id h F) (domWalk f rounds j s (some a)) (xs.map toDItem) ∧ xs.length < (m + 2) ^ k := by
  intro k
  induction k with
  | zero => intro j s a n G xs _ hN; exact hN.elim
  | succ k ih =>
    intro j s a n G xs hj hN hG hx
    obtain ⟨j, rfl⟩ : ∃ i, j = i + 1 := ⟨j - 1, by omega⟩
    obtain ⟨t, A, fn, ff, o⟩ := hN
    rw [enumN_eq] at hx
    simp only [Option.bind_eq_some_iff, Option.map_eq_some_iff] at hx
    obtain ⟨ps, hps, rest, hrest, rfl⟩ := hx
    rw [DL.Enumerate, o.br, brOf_root o.lab, ← humanL_eq, enumerate_map, humanL_map, Option.map_eq_some_iff] at hps
    obtain ⟨items, hitems, rfl⟩ := hps
    obtain ⟨oh, ho1, rfl⟩ := humanL_some hitems
    rw [List.map_map, List.map_map] at hrest
    obtain ⟨og, ho2, rfl⟩ := concatAll_split hrest
    have ha : pinOf id h F a = some ⟨.node n.val, t, none⟩ := pinOf_some (hG a ((o.foot a).2 (.inl rfl))) o.cell
    have hc : kN.cell (⟨.node n.val, t, none⟩ : Cell (DD V)) = some ⟨n.val, t, none⟩ := kN.cell_map ⟨n.val, t, none⟩
    have hsz : (RB.enumerate (erase A)).length ≤ m := by
      rw [enum_size, DLHeap.erase_size]; exact o.lab.size
    -- the nodes below
    have hsub : ∀ p ∈ RB.enumerate (erase A), ∃ c, (oh p).2 = some c ∧
        Emits (pinOf id h F) (domWalk f rounds j (subKey (oh p).1 s) (some c)) ((og p).map toDItem) ∧ (og p).length < (m + 2) ^ k := by
      intro p hp
      obtain ⟨c, e1, r⟩ := o.sub p.1 p.2 ((get_lookup o.lab.srt).2 hp)
      have e : (oh p).2 = p.2 := by
        have := ho1 p hp
        simp only [human, Option.map_eq_some_iff] at this
        obtain ⟨x, _, hx⟩ := this
        rw [← hx]
      have h2 := ho2 p hp
      simp only [Function.comp] at h2
      rw [e] at h2
      refine ⟨c, e.trans e1, ih j _ c _ _ _ (by omega) r (fun x hx => hG x ((o.foot x).2 (.inr (.inr ⟨p.1, hx⟩)))) h2⟩
    have eloop : Emits (pinOf id h F) (fun k => Gen.read a fun c => match kN.cell c with
        | none => .fail
        | some c => Gen.rangeGo (dlGen dm (fun p => (human p).map fun p => .item p.1 p.2) f c.c0) (fun
            | .pair _ _, _ => .fail
            | .item key p, k => match p with
              | none => .fail
              | some c => domWalk f rounds j (subKey key s) (some c) k) rounds k)
        ((RB.enumerate (erase A)).flatMap fun p => (og p).map toDItem) := by
      refine emits_read' ha ?_
      simp only [hc]
      obtain ⟨n', hn⟩ := dlGen_out (B := DItem V) (item := fun p => (human p).map fun p => .item p.1 p.2) (o := fun p => .item (oh p).1 (oh p).2) o.lab
        (F := F) (fun x hx => hG x ((o.foot x).2 (.inr (.inl hx)))) hf fun p hp => by rw [ho1 p hp]; rfl
      refine emits_rangeGo hn (fun p hp => ?_) (Nat.lt_of_le_of_lt hsz hr)
      obtain ⟨c, e1, e2, _⟩ := hsub p hp
      rw [e1]
      exact e2
    constructor
    · rw [List.map_append, List.map_flatMap]
      have e1 : Emits (pinOf id h F) (fun k => Gen.read a fun c => match kN.cell c with
          | none => .fail
          | some c => match c.d with
            | some v => .send (.pair s v) k
            | none => k) ((n.val.toList.map fun v => (s, v)).map toDItem) := by
        refine emits_read' ha ?_
        simp only [hc]
        cases n.val with
        | none => exact emits_id
        | some v => exact emits_send _
      exact e1.comp eloop
    · have h1 := flatMap_length_le (o := og) (l := RB.enumerate (erase A)) (k := (m + 2) ^ k) fun p hp => Nat.le_of_lt (by obtain ⟨_, _, _, e⟩ := hsub p hp; exact e)
      have h2 : (n.val.toList.map fun v => (s, v)).length ≤ 1 := by cases n.val <;> simp
      have h3 : (RB.enumerate (erase A)).length * (m + 2) ^ k ≤ m * (m + 2) ^ k := Nat.mul_le_mul_right _ hsz
      have h4 : (m + 2) ^ (k + 1) = m * (m + 2) ^ k + 2 * (m + 2) ^ k := by rw [Nat.pow_succ, Nat.mul_comm, Nat.add_mul]
      have h5 : 0 < (m + 2) ^ k := Nat.pow_pos (by omega)
      rw [List.length_append]
      generalize (m + 2) ^ k = y at *
      generalize m * y = z at *
      omega

theorem domLoop_lawful (st : Bool) {n : Nat} (hf : 2 * n + 3 ≤ f) (hk : 128 ≤ f) (hr : (n + 2) ^ 128 ≤ rounds) :
    (domLoop f rounds V).Lawful (domImpl st f) (fun l es => DomRight .list l (.list es) ∧ (DomTree.run (DomHeap.start0 st) l).bind DomTree.Enumerate = some es) n where
  ok := by
    intro h r l F hl ho
    have hread := domRead_ok hf hk .list h r l F hl ho
    obtain ⟨h0, t, hrun, hN⟩ := ho
    obtain ⟨xs, h1, h2⟩ := lists_of_run h0 hrun
    have hR : l.length < rounds := by
      have : n + 2 ≤ (n + 2) ^ 128 := Nat.le_self_pow (by omega) _
      omega
    have hgen : ∃ k, (domWalk f rounds f [] r .done).out (pinOf id h F) [] = some (xs.map toDItem, k) ∧ xs.length < (l.length + 2) ^ 128 := by
      have hp : 0 < (l.length + 2) ^ 128 := Nat.pow_pos (by omega)
      obtain ⟨f, rfl⟩ : ∃ i, f = i + 1 := ⟨f - 1, by omega⟩
      cases r with
      | none =>
        cases t with
        | none =>
          cases h1
          obtain ⟨k, hk⟩ := (emits_id (pin := pinOf id h F) (B := DItem V)).out
          exact ⟨k, hk, hp⟩
        | some t => exact hN.elim
      | some a =>
        cases t with
        | none => exact hN.elim
        | some t =>
          obtain ⟨e1, e2⟩ := domWalk_emits (F := F) (f := f + 1) (rounds := rounds) (tall_lt (by omega)) hR 128 (f + 1) [] a t F xs hk hN (fun _ h => h) h1
          obtain ⟨k, hk⟩ := e1.out
          exact ⟨k, hk, e2⟩
    obtain ⟨k, hk1, hk2⟩ := hgen
    refine ⟨_, xs, k, hk1, ?_, ?_, by simp, ?_⟩
    · rw [List.length_map]
      exact Nat.lt_of_lt_of_le hk2 (Nat.le_trans (Nat.pow_le_pow_left (by omega) _) hr)
    · exact ⟨⟨xs, rfl, h2⟩, by rw [hrun]; exact h1⟩
    · intro j b e hb he h' _
      rw [List.getElem?_map, he] at hb
      cases hb
      exact ⟨rfl, rfl⟩

end Domaintree
end Verif.Pipe
