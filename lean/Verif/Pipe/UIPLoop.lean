import Verif.Pipe.IPLoop

/-!
# Loops over Enumerate of the generated IP trees
-/

namespace Verif.Pipe
open Verif.Heap Verif.Heap.Prog Verif.Heap.ATree Verif.Num Verif.NumHeap
open Verif.IP (key4 unpack64 maskIP cidrMask)
open Verif.UIPHeap Verif.Props
open Verif.UIP (Tree)

variable {V : Type}

/-- What goes through the channels: pointers to nodes, and pairs. -/
inductive UItem (V : Type) where
  | node (a : Addr)
  | pair (n : IPNet) (v : V)

/-- Body of the loop over `root32.Enumerate()`. uintX/iptree8/iptree.go:196-203.  The fields of the node are read in one step. -/
def usend4 : UItem V → Gen (Cell (UD V)) (UItem V) → Gen (Cell (UD V)) (UItem V)
  | .pair _ _, _ => .fail
  | .node a, k => .read a fun c => match k32.cell c with
    | none => .fail
    | some c => .send (.pair (key4 c.d) c.d.value) k

/-- Body of the loop over the nested tree of the node at `n`. uintX/iptree8/iptree.go:207-215: it reads `m.key`, `m.value`, `m.bits`, and
`n.bits` each time. -/
def usend6s (key : BitVec 64) (n : Addr) : UItem V → Gen (Cell (UD V)) (UItem V) → Gen (Cell (UD V)) (UItem V)
  | .pair _ _, _ => .fail
  | .node a, k => .read a fun c => match k64.cell c with
    | none => .fail
    | some m => .read n fun c => match k64s.cell c with
      | none => .fail
      | some n => .send (.pair ⟨maskIP (unpack64 key ++ unpack64 m.d.key) (cidrMask (n.d.bits + m.d.bits) 128), cidrMask (n.d.bits + m.d.bits) 128⟩ m.d.value) k

/-- Body of the loop over `root64.Enumerate()`. uintX/iptree8/iptree.go:205-216. -/
def usend6 (f rounds : Nat) : UItem V → Gen (Cell (UD V)) (UItem V) → Gen (Cell (UD V)) (UItem V)
  | .pair _ _, _ => .fail
  | .node a, k => .read a fun c => match k64s.cell c with
    | none => .fail
    | some c => Gen.rangeGo (numGen (kFld k64) .node f c.d.value) (usend6s c.d.key a) rounds k

/-- uintX/iptree8/iptree.go:107-121 `Enumerate`, 195-217 `enumerate`. -/
def uipGen (f rounds : Nat) : Ptr → Gen (Cell (UD V)) (UItem V)
  | none => .done
  | some t => .read t fun c => match kTree.cell c with
    | none => .fail
    | some c => Gen.rangeGo (numGen (kFld k32) .node f c.c0) usend4 rounds <| .read t fun c => match kTree.cell c with
      | none => .fail
      | some c => Gen.rangeGo (numGen (kFld k64s) .node f c.c1) (usend6 f rounds) rounds .done

/-- A loop over `Enumerate` of a generated IP tree. -/
def uipLoop (f rounds : Nat) (V : Type) : Loop (UD V) Ptr (UItem V) (IPNet × V) where
  gen := uipGen f rounds
  item
    | .pair n v => pure (n, v)
    | .node _ => .stop .panic
  rounds := rounds

/-- The pair as it goes through the channel. -/
def toUItem (p : IPNet × V) : UItem V := .pair p.1 p.2

variable {h : Heap (UD V)} {F : Addr → Prop} {f rounds : Nat}

theorem usend4_emits {A : ATree (ND 32 V)} (hA : Rep (k32.view h) A) (hF : ∀ a, 1 ≤ cnt a A → F a) {ad : Addr × ND 32 V} (hm : ad ∈ nodes A) :
    Emits (pinOf id h F) (usend4 (.node ad.1)) [toUItem (key4 ad.2, ad.2.value)] := by
  obtain ⟨c, h1, h2⟩ := nodes_pin k32 hA hF hm
  show Emits _ (fun k => usend4 (.node ad.1) k) _
  simp only [usend4]
  refine emits_read' h1 ?_
  simp only [k32.cell_map, h2]
  exact emits_send _

theorem usend6_emits (hf : 66 ≤ f) (hr : 2 ^ 65 ≤ rounds) {P : ATree (ND 64 (AB V))} (hP : Rep6 h P) (hF : ∀ a, 1 ≤ tot a P → F a) {ad : Addr × ND 64 (AB V)} (hm : ad ∈ nodes P) :
    Emits (pinOf id h F) (usend6 f rounds (.node ad.1)) ((UIP.enum6 (ad.2.mapV erase)).map toUItem) := by
  have hm' : (ad.1, ad.2.mapV ptr) ∈ nodes (mapA ptr P) := by
    rw [nodes_mapA]; exact List.mem_map.2 ⟨ad, hm, rfl⟩
  obtain ⟨c, h1, h2⟩ := nodes_pin k64s hP.rep (F := F) (fun a ha => hF a (by simp at ha; unfold tot; omega)) hm'
  show Emits _ (fun k => usend6 f rounds (.node ad.1) k) _
  simp only [usend6]
  refine emits_read' h1 ?_
  simp only [k64s.cell_map, h2]
  obtain ⟨a, key, bits, leaf, B⟩ := ad
  have hv := nodes_vals hm
  have hB : Sub h B := hP.sub _ hv
  have hh := UIPHeap.wf_height hB.2
  have hFB : ∀ a, 1 ≤ cnt a B → F a := fun a ha => hF a (Nat.le_trans ha (cntSub_le_tot hv a))
  obtain ⟨n, hn⟩ := numGen_kind k64 hB.1 (F := F) hFB (f := f) (by omega) UItem.node (B := UItem V)
  have := emits_rangeGo (e := fun ad : Addr × ND 64 V => UItem.node ad.1) (f := rounds) (l := nodes B) (body := usend6s key a)
    (o := fun ad => [toUItem (UIP.key6 ⟨key, bits, leaf, erase B⟩ ad.2, ad.2.value)]) hn (fun ad' hm => ?_) (Nat.lt_of_lt_of_le (nodes_lt hh) hr)
  · rw [← List.map_eq_flatMap] at this
    simpa [UIP.enum6, ND.mapV, ← leaves_enumerate, Function.comp_def] using this
  · obtain ⟨c', h3, h4⟩ := nodes_pin k64 hB.1 (F := F) hFB hm
    show Emits _ (fun k => usend6s key a (.node ad'.1) k) _
    simp only [usend6s]
    refine emits_read' h3 ?_
    simp only [k64.cell_map, h4]
    refine emits_read' h1 ?_
    simp only [k64s.cell_map, h2]
    exact emits_send _

theorem uipGen_out (hf : 66 ≤ f) (hr : 2 ^ 65 ≤ rounds) {r : Ptr} {t : Option (Tree V)} (hT : TRep h r t F) :
    ∃ n, (uipGen f rounds r).out (pinOf id h F) [] = some ((UIP.Enumerate t).map toUItem, n) := by
  cases t with
  | none =>
    obtain ⟨rfl, _⟩ := hT
    exact emits_id.out
  | some t =>
    obtain ⟨a, A, P, rfl, hc, _, ⟨hA, hw, _⟩, ⟨hP, _⟩, rfl, hF⟩ := hT
    have ha : pinOf id h F a = some ⟨.tree, ptr A, ptr P⟩ := pinOf_some ((hF a).2 (.inl rfl)) hc
    have hc : kTree.cell (⟨.tree, ptr A, ptr P⟩ : Cell (UD V)) = some ⟨(), ptr A, ptr P⟩ := rfl
    have hFA : ∀ a, 1 ≤ cnt a A → F a := fun x hx => (hF x).2 (.inr (.inl hx))
    have hFP : ∀ a, 1 ≤ tot a P → F a := fun x hx => (hF x).2 (.inr (.inr hx))
    have e6 : Emits (pinOf id h F) (fun k => Gen.read a fun c => match kTree.cell c with
        | none => .fail
        | some c => Gen.rangeGo (numGen (kFld k64s) .node f c.c1) (usend6 f rounds) rounds k) ((nodes P).flatMap fun ad => (UIP.enum6 (ad.2.mapV erase)).map toUItem) := by
      refine emits_read' ha ?_
      simp only [hc]
      have hh := UIPHeap.wf_height hP.wf
      obtain ⟨n, hn⟩ := numGen_kind k64s hP.rep (F := F) (fun a ha => hFP a (by simp at ha; unfold tot; omega)) (f := f) (by simp; omega) UItem.node (B := UItem V)
      rw [nodes_mapA, List.map_map, ptr_mapA] at hn
      exact emits_rangeGo (e := fun ad : Addr × ND 64 (AB V) => UItem.node ad.1) (l := nodes P) hn (fun ad hm => usend6_emits hf hr hP hFP hm)
        (Nat.lt_of_lt_of_le (nodes_lt hh) hr)
    have e4 : Emits (pinOf id h F) (fun k => Gen.read a fun c => match kTree.cell c with
        | none => .fail
        | some c => Gen.rangeGo (numGen (kFld k32) .node f c.c0) usend4 rounds k) ((nodes A).flatMap fun ad => [toUItem (key4 ad.2, ad.2.value)]) := by
      refine emits_read' ha ?_
      simp only [hc]
      have hh := UIPHeap.wf_height hw
      obtain ⟨n, hn⟩ := numGen_kind k32 hA (F := F) hFA (f := f) (by omega) UItem.node (B := UItem V)
      exact emits_rangeGo (e := fun ad : Addr × ND 32 V => UItem.node ad.1) (l := nodes A) hn (fun ad hm => usend4_emits hA hFA hm)
        (Nat.lt_of_lt_of_le (nodes_lt hh) (Nat.le_trans (by decide) hr))
    obtain ⟨n, hn⟩ := (e4.comp e6).out
    refine ⟨n, hn.trans ?_⟩
    rw [← List.map_eq_flatMap]
    simp only [UIP.Enumerate, Num.Enumerate, enumerate_map, List.map_append, List.map_flatMap, List.map_map]
    simp only [← nodes_enum, List.map_map, List.flatMap_map]
    rfl

theorem uip_length {r : Ptr} {t : Option (Tree V)} (hT : TRep h r t F) : (UIP.Enumerate t).length ≤ 2 ^ 131 := by
  cases t with
  | none => simp [UIP.Enumerate]
  | some t =>
    obtain ⟨a, A, P, rfl, hc, _, ⟨hA, hw, _⟩, ⟨hP, _⟩, rfl, hF⟩ := hT
    have h1 := nodes_lt (UIPHeap.wf_height hw)
    have h2 := nodes_lt (UIPHeap.wf_height hP.wf)
    have h3 : ∀ ad ∈ nodes P, (UIP.enum6 (ad.2.mapV erase)).length ≤ 2 ^ 65 := by
      rintro ⟨b, key, bits, leaf, B⟩ hm
      have := nodes_lt (UIPHeap.wf_height (hP.sub _ (nodes_vals hm)).2)
      simp only [UIP.enum6, ND.mapV, ← leaves_enumerate, List.length_map]
      exact Nat.le_of_lt this
    have h4 := flatMap_length_le h3
    have h5 : (UIP.Enumerate (some (⟨erase A, mapT erase (erase P)⟩ : Tree V))).length = (nodes A).length + ((nodes P).flatMap fun ad => UIP.enum6 (ad.2.mapV erase)).length := by
      simp only [UIP.Enumerate, Num.Enumerate, enumerate_map, List.length_append, List.length_map]
      simp only [← nodes_enum, List.map_map, List.flatMap_map, List.length_map]
      rfl
    rw [h5]
    have h6 : (nodes P).length * 2 ^ 65 ≤ 2 ^ 65 * 2 ^ 65 := Nat.mul_le_mul_right _ (Nat.le_of_lt h2)
    have h7 : (2:Nat) ^ 65 * 2 ^ 65 + 2 ^ 33 ≤ 2 ^ 131 := by decide
    exact Nat.le_trans (Nat.add_le_add (Nat.le_of_lt h1) (Nat.le_trans h4 h6)) (by rw [Nat.add_comm]; exact h7)

variable [Inhabited V]

theorem uipLoop_lawful (st : Bool) (hf : 66 ≤ f) (hr : 2 ^ 131 < rounds) (n : Nat) :
    (uipLoop f rounds V).Lawful (uipImpl st f) (fun l es => UNetRight .list l (.list es)) n where
  ok := by
    intro h r l F _ ho
    have hread := unetRead_ok hf .list h r l F ho
    obtain ⟨t, hT, ht⟩ := ho
    obtain ⟨k, hk⟩ := uipGen_out (rounds := rounds) hf (Nat.le_trans (by decide) (Nat.le_of_lt hr)) hT
    refine ⟨_, UIP.Enumerate t, k, hk, ?_, ?_, by simp, ?_⟩
    · rw [List.length_map]
      exact Nat.lt_of_le_of_lt (uip_length hT) hr
    · have h2 : wp (fun _ => False) (unetRead f .list r) (fun x h' => x = .list (UIP.Enumerate t)) h := by
        simp only [unetRead, wp_bind, wp_pure]
        exact wp_conseq (UIPHeap.EnumerateTreeP_spec hf hT) fun x h' hx => by rw [hx.2]
      obtain ⟨x, h', e1, e2, _⟩ := wp_run hread
      obtain ⟨x', h'', e3, e4, _⟩ := wp_run h2
      rw [e1] at e3
      cases e3
      rw [← e4]; exact e2.2
    · intro j b e hb he h' _
      rw [List.getElem?_map] at hb
      rw [he] at hb
      cases hb
      exact ⟨rfl, rfl⟩

end Verif.Pipe
