import Verif.Pipe.Loops

/-!
# Loops over Enumerate of iptree
-/

namespace Verif.Pipe
open Verif.Heap Verif.Heap.Prog Verif.Heap.ATree Verif.Num Verif.NumHeap

section Kinds
variable {w : Nat} {W W' E B : Type} {h : Heap E} {F : Addr → Prop}

/-- The fields that the walk of numtree reads, of a cell of a memory with several types. -/
def kFld (K : Kind (ND w W) E) (c : Cell E) : Option (Bool × Ptr × Ptr) := (K.cell c).map fun c => (c.d.leaf, c.c0, c.c1)

/-- The leaves of a numtree tree. -/
abbrev nodes (A : ATree (ND w W)) : List (Addr × ND w W) := leaves (fun d : ND w W => d.leaf) A

theorem numGen_kind (K : Kind (ND w W) E) {A : ATree (ND w W)} (hA : Rep (K.view h) A) (hF : ∀ a, 1 ≤ cnt a A → F a) {f : Nat} (hf : A.height < f) (item : Addr → B) :
    ∃ n, (numGen (kFld K) item f (ptr A)).out (pinOf id h F) [] = some ((nodes A).map fun ad => item ad.1, n) := by
  refine numGen_out hf (pinned_of_rep K (fun c => ?_) hA hF)
  simp [kFld, K.cell_map]

theorem nodes_pin (K : Kind (ND w W) E) {A : ATree (ND w W)} (hA : Rep (K.view h) A) (hF : ∀ a, 1 ≤ cnt a A → F a) {ad : Addr × ND w W} (hm : ad ∈ nodes A) :
    ∃ c : Cell (ND w W), pinOf id h F ad.1 = some (c.map K.inj) ∧ c.d = ad.2 := by
  obtain ⟨h1, c, h2, h3⟩ := leaves_mem hA hm
  exact ⟨c, pinOf_some (hF _ h1) (K.view_mem.1 h2), h3⟩

theorem nodes_mapA (g : W → W') (A : ATree (ND w W)) : nodes (mapA g A) = (nodes A).map fun ad => (ad.1, ad.2.mapV g) := by
  induction A with
  | nil => rfl
  | node ad l r ihl ihr =>
    simp only [nodes] at ihl ihr
    simp only [nodes, mapA_node, leaves, ihl, ihr, List.map_append, ND.mapV]
    split <;> rfl

theorem nodes_enum (A : ATree (ND w W)) : (nodes A).map Prod.snd = Num.enumerate (erase A) := leaves_enumerate A

theorem nodes_lt {A : ATree (ND w W)} {k : Nat} (h : A.height ≤ k) : (nodes A).length < 2 ^ k := by
  have h1 := leaves_length (fun d : ND w W => d.leaf) A
  have h2 := size_height A
  have h3 : 2 ^ A.height ≤ 2 ^ k := Nat.pow_le_pow_right (by omega) h
  exact Nat.lt_of_lt_of_le (Nat.lt_of_le_of_lt h1 h2) h3

theorem nodes_vals {A : ATree (ND w W)} {ad : Addr × ND w W} (h : ad ∈ nodes A) : ad.2.value ∈ vals (erase A) := by
  have : ad.2 ∈ Num.Enumerate (erase A) := by
    rw [← leaves_enumerate]
    exact List.mem_map_of_mem h
  exact IPHeap.enumerate_vals this

end Kinds

section Iptree
open Verif.IP Verif.IPHeap Verif.Props
variable {V : Type}

/-- What goes through the channels: pointers to nodes from numtree's goroutines, pairs from iptree's. -/
inductive IPItem (V : Type) where
  | node (a : Addr)
  | pair (n : IPNet) (v : HV V)

/-- Body of the loop over `root32.Enumerate()`. iptree/iptree.go:331-338.  The fields of the node are read in one step. -/
def send4 : IPItem V → Gen (Cell (IPD V)) (IPItem V) → Gen (Cell (IPD V)) (IPItem V)
  | .pair _ _, _ => .fail
  | .node a, k => .read a fun c => match k32.cell c with
    | none => .fail
    | some c => .send (.pair (key4 c.d) (.user c.d.value)) k

/-- Body of the loop over the nested tree. iptree/iptree.go:343-350. -/
def send6s (key : BitVec 64) : IPItem V → Gen (Cell (IPD V)) (IPItem V) → Gen (Cell (IPD V)) (IPItem V)
  | .pair _ _, _ => .fail
  | .node a, k => .read a fun c => match k64.cell c with
    | none => .fail
    | some c => .send (.pair (key6s key c.d) c.d.value) k

/-- Body of the loop over `root64.Enumerate()`. iptree/iptree.go:340-359. -/
def send6 (f rounds : Nat) : IPItem V → Gen (Cell (IPD V)) (IPItem V) → Gen (Cell (IPD V)) (IPItem V)
  | .pair _ _, _ => .fail
  | .node a, k => .read a fun c => match k64.cell c with
    | none => .fail
    | some c => match c.d.value with
      | .sub s => Gen.rangeGo (numGen (kFld k64) .node f s) (send6s c.d.key) rounds k
      | .user v => .send (.pair (key6 c.d) (.user v)) k

/-- iptree/iptree.go:230-244 `Enumerate`, 330-361 `enumerate`. -/
def ipGen (f rounds : Nat) : Ptr → Gen (Cell (IPD V)) (IPItem V)
  | none => .done
  | some t => .read t fun c => match kTree.cell c with
    | none => .fail
    | some c => Gen.rangeGo (numGen (kFld k32) .node f c.c0) send4 rounds <| .read t fun c => match kTree.cell c with
      | none => .fail
      | some c => Gen.rangeGo (numGen (kFld k64) .node f c.c1) (send6 f rounds) rounds .done

/-- A loop over `Enumerate` of iptree. -/
def ipLoop (f rounds : Nat) (V : Type) : Loop (IPD V) Ptr (IPItem V) (IPNet × HV V) where
  gen := ipGen f rounds
  item
    | .pair n v => pure (n, v)
    | .node _ => .stop .panic
  rounds := rounds

/-- The pair as it goes through the channel. -/
def toItem (p : IPNet × V) : IPItem V := .pair p.1 (.user p.2)

variable {h : Heap (IPD V)} {F : Addr → Prop} {f rounds : Nat}

theorem send4_emits {A : ATree (ND 32 V)} (hA : Rep (k32.view h) A) (hF : ∀ a, 1 ≤ cnt a A → F a) {ad : Addr × ND 32 V} (hm : ad ∈ nodes A) :
    Emits (pinOf id h F) (send4 (.node ad.1)) [toItem (key4 ad.2, ad.2.value)] := by
  obtain ⟨c, h1, h2⟩ := nodes_pin k32 hA hF hm
  show Emits _ (fun k => send4 (.node ad.1) k) _
  simp only [send4]
  refine emits_read' h1 ?_
  simp only [k32.cell_map, h2]
  exact emits_send _

theorem send6s_emits {key : BitVec 64} {B : ATree (ND 64 V)} (hB : Rep (k64.view h) (mapA HV.user B)) (hF : ∀ a, 1 ≤ cnt a B → F a) {ad : Addr × ND 64 V} (hm : ad ∈ nodes B) :
    Emits (pinOf id h F) (send6s key (.node ad.1)) [toItem (key6s key ad.2, ad.2.value)] := by
  have hm' : (ad.1, ad.2.mapV HV.user) ∈ nodes (mapA HV.user B) := by
    rw [nodes_mapA]; exact List.mem_map.2 ⟨ad, hm, rfl⟩
  obtain ⟨c, h1, h2⟩ := nodes_pin k64 hB (by simpa using hF) hm'
  show Emits _ (fun k => send6s key (.node ad.1) k) _
  simp only [send6s]
  refine emits_read' h1 ?_
  simp only [k64.cell_map, h2]
  exact emits_send _

theorem send6_emits (hf : 66 ≤ f) (hr : 2 ^ 65 ≤ rounds) {P : ATree (ND 64 (AV V))} (hP : Rep6 h P) (hF : ∀ a, 1 ≤ tot a P → F a) {ad : Addr × ND 64 (AV V)} (hm : ad ∈ nodes P) :
    Emits (pinOf id h F) (send6 f rounds (.node ad.1)) ((enum6 (ad.2.mapV toTV)).map toItem) := by
  have hm' : (ad.1, ad.2.mapV toHV) ∈ nodes (mapA toHV P) := by
    rw [nodes_mapA]; exact List.mem_map.2 ⟨ad, hm, rfl⟩
  obtain ⟨c, h1, h2⟩ := nodes_pin k64 hP.rep (F := F) (fun a ha => hF a (by simp at ha; unfold tot; omega)) hm'
  show Emits _ (fun k => send6 f rounds (.node ad.1) k) _
  simp only [send6]
  refine emits_read' h1 ?_
  simp only [k64.cell_map, h2]
  obtain ⟨a, key, bits, leaf, v⟩ := ad
  have hv := nodes_vals hm
  cases v with
  | user v => exact emits_send _
  | sub B =>
    have hB : Sub h B := hP.sub _ hv
    have hh := wf_height hB.2
    have hFB : ∀ a, 1 ≤ cnt a B → F a := fun a ha => hF a (Nat.le_trans ha (cntSub_le_tot hv a))
    obtain ⟨n, hn⟩ := numGen_kind k64 hB.1 (F := F) (by simpa using hFB) (f := f) (by simp; omega) IPItem.node (B := IPItem V)
    rw [nodes_mapA, List.map_map] at hn
    have := emits_rangeGo (e := fun ad : Addr × ND 64 V => IPItem.node ad.1) (f := rounds) (l := nodes B) (body := send6s key)
      (by simpa [Function.comp_def] using hn) (fun ad' hm => send6s_emits hB.1 hFB hm) (Nat.lt_of_lt_of_le (nodes_lt hh) hr)
    rw [← List.map_eq_flatMap] at this
    simpa [enum6, ND.mapV, toHV, toTV, ← leaves_enumerate, Function.comp_def] using this

theorem ipGen_out (hf : 66 ≤ f) (hr : 2 ^ 65 ≤ rounds) {r : Ptr} {t : Option (Tree V)} (hT : TRep h r t F) :
    ∃ n, (ipGen f rounds r).out (pinOf id h F) [] = some ((IP.Enumerate t).map toItem, n) := by
  cases t with
  | none =>
    obtain ⟨rfl, _⟩ := hT
    exact emits_id.out
  | some t =>
    obtain ⟨a, A, P, rfl, hc, _, ⟨hA, hw, _⟩, ⟨hP, _⟩, rfl, hF⟩ := hT
    have ha : pinOf id h F a = some ⟨.tree, ptr A, ptr P⟩ := pinOf_some ((hF a).2 (.inl rfl)) hc
    have hc : kTree.cell (⟨.tree, ptr A, ptr P⟩ : Cell (IPD V)) = some ⟨(), ptr A, ptr P⟩ := rfl
    have hFA : ∀ a, 1 ≤ cnt a A → F a := fun x hx => (hF x).2 (.inr (.inl hx))
    have hFP : ∀ a, 1 ≤ tot a P → F a := fun x hx => (hF x).2 (.inr (.inr hx))
    have e6 : Emits (pinOf id h F) (fun k => Gen.read a fun c => match kTree.cell c with
        | none => .fail
        | some c => Gen.rangeGo (numGen (kFld k64) .node f c.c1) (send6 f rounds) rounds k) ((nodes P).flatMap fun ad => (enum6 (ad.2.mapV toTV)).map toItem) := by
      refine emits_read' ha ?_
      simp only [hc]
      have hh := wf_height hP.wf
      obtain ⟨n, hn⟩ := numGen_kind k64 hP.rep (F := F) (fun a ha => hFP a (by simp at ha; unfold tot; omega)) (f := f) (by simp; omega) IPItem.node (B := IPItem V)
      rw [nodes_mapA, List.map_map, ptr_mapA] at hn
      exact emits_rangeGo (e := fun ad : Addr × ND 64 (AV V) => IPItem.node ad.1) (l := nodes P) hn (fun ad hm => send6_emits hf hr hP hFP hm)
        (Nat.lt_of_lt_of_le (nodes_lt hh) hr)
    have e4 : Emits (pinOf id h F) (fun k => Gen.read a fun c => match kTree.cell c with
        | none => .fail
        | some c => Gen.rangeGo (numGen (kFld k32) .node f c.c0) send4 rounds k) ((nodes A).flatMap fun ad => [toItem (key4 ad.2, ad.2.value)]) := by
      refine emits_read' ha ?_
      simp only [hc]
      have hh := wf_height hw
      obtain ⟨n, hn⟩ := numGen_kind k32 hA (F := F) hFA (f := f) (by omega) IPItem.node (B := IPItem V)
      exact emits_rangeGo (e := fun ad : Addr × ND 32 V => IPItem.node ad.1) (l := nodes A) hn (fun ad hm => send4_emits hA hFA hm)
        (Nat.lt_of_lt_of_le (nodes_lt hh) (Nat.le_trans (by decide) hr))
    obtain ⟨n, hn⟩ := (e4.comp e6).out
    refine ⟨n, hn.trans ?_⟩
    rw [← List.map_eq_flatMap]
    simp only [IP.Enumerate, Num.Enumerate, enumerate_map, List.map_append, List.map_flatMap, List.map_map]
    simp only [← nodes_enum, List.map_map, List.flatMap_map]
    rfl

theorem ip_length {r : Ptr} {t : Option (Tree V)} (hT : TRep h r t F) : (IP.Enumerate t).length ≤ 2 ^ 131 := by
  cases t with
  | none => simp [IP.Enumerate]
  | some t =>
    obtain ⟨a, A, P, rfl, hc, _, ⟨hA, hw, _⟩, ⟨hP, _⟩, rfl, hF⟩ := hT
    have h1 := nodes_lt (wf_height hw)
    have h2 := nodes_lt (wf_height hP.wf)
    have h3 : ∀ ad ∈ nodes P, (enum6 (ad.2.mapV toTV)).length ≤ 2 ^ 65 := by
      rintro ⟨b, key, bits, leaf, v⟩ hm
      cases v with
      | user v => simp [enum6, ND.mapV, toTV]
      | sub B =>
        have := nodes_lt (wf_height (hP.sub _ (nodes_vals hm)).2)
        simp only [enum6, ND.mapV, toTV, ← leaves_enumerate, List.length_map]
        exact Nat.le_of_lt this
    have h4 := flatMap_length_le h3
    have h5 : (IP.Enumerate (some (⟨erase A, mapT toTV (erase P)⟩ : Tree V))).length = (nodes A).length + ((nodes P).flatMap fun ad => enum6 (ad.2.mapV toTV)).length := by
      simp only [IP.Enumerate, Num.Enumerate, enumerate_map, List.length_append, List.length_map]
      simp only [← nodes_enum, List.map_map, List.flatMap_map, List.length_map]
      rfl
    rw [h5]
    have h6 : (nodes P).length * 2 ^ 65 ≤ 2 ^ 65 * 2 ^ 65 := Nat.mul_le_mul_right _ (Nat.le_of_lt h2)
    have h7 : (2:Nat) ^ 65 * 2 ^ 65 + 2 ^ 33 ≤ 2 ^ 131 := by decide
    exact Nat.le_trans (Nat.add_le_add (Nat.le_of_lt h1) (Nat.le_trans h4 h6)) (by rw [Nat.add_comm]; exact h7)

variable [Inhabited V]

theorem ipLoop_lawful (st : Bool) (hf : 66 ≤ f) (hr : 2 ^ 131 < rounds) (n : Nat) :
    (ipLoop f rounds V).Lawful (ipImpl st f) (fun l es => NetRight .list l (.list es)) n where
  ok := by
    intro h r l F _ ho
    have hread := netRead_ok hf .list h r l F ho
    obtain ⟨t, ht, hT⟩ := ho
    obtain ⟨k, hk⟩ := ipGen_out (rounds := rounds) hf (Nat.le_trans (by decide) (Nat.le_of_lt hr)) hT
    refine ⟨_, (IP.Enumerate t).map fun p => (p.1, HV.user p.2), k, hk, ?_, ?_, by simp, ?_⟩
    · rw [List.length_map]
      exact Nat.lt_of_le_of_lt (ip_length hT) hr
    · have h2 : wp (fun _ => False) (netRead f .list r) (fun x h' => x = .list ((IP.Enumerate t).map fun p => (p.1, HV.user p.2))) h := by
        simp only [netRead, wp_bind, wp_pure]
        exact wp_conseq (IPHeap.EnumerateTreeP_spec hf hT) fun x h' hx => by rw [hx.2]
      obtain ⟨x, h', e1, e2, _⟩ := wp_run hread
      obtain ⟨x', h'', e3, e4, _⟩ := wp_run h2
      rw [e1] at e3
      cases e3
      rw [← e4]; exact e2.2
    · intro j b e hb he h' _
      rw [List.getElem?_map] at hb he
      cases hj : (IP.Enumerate t)[j]? with
      | none => rw [hj] at hb; cases hb
      | some p =>
        rw [hj] at hb he
        cases hb; cases he
        exact ⟨rfl, rfl⟩

end Iptree
end Verif.Pipe
