import Verif.IP.History

/-!
# Properties C37-C41, C44, C46 of iptree (functional part)

A history is a list of calls (newest first) paired with what each call means (`OpNet`); every call has a meaning
(`OpNet.total`).
-/

namespace Verif.Props
open Verif Verif.IP
variable {V : Type} [Inhabited V]

/-- Networks for examples. -/
def net4 (a b c d : UInt8) (ones : Nat) : IPNet := ⟨[a, b, c, d], cidrMask ones 32⟩
/-- An IPv6 network for examples: first two and last two bytes, zeros between. -/
def net6 (a b : UInt8) (y z : UInt8) (ones : Nat) : IPNet :=
  ⟨[a, b, 0, 0, 0, 0, 0, 0, 0, 0, 0, 0, 0, 0, y, z], cidrMask ones 128⟩

instance : Repr (TV Nat) := ⟨fun x _ => match x with | .user v => repr v | .sub _ => "sub"⟩

/-- A user value, for examples. -/
def uval : Option (TV Nat) → Option Nat
  | some (.user v) => some v
  | _ => none

/-- Calls used in the examples: both families, a network longer and one shorter than 64 bits, one malformed. -/
def sampleIP : List (Op Nat) :=
  [.deleteByNet (some (net4 10 1 0 0 16)), .insertNet (some (net6 0x20 0x01 0 1 128)) 6, .insertNet (some (net6 0x20 0x01 0 0 64)) 5,
   .insertNet (some (net6 0x20 0x01 0 0 16)) 4, .insertNet (some ⟨[10, 0, 0, 0], [0xff, 0, 0xff, 0]⟩) 9,
   .insertIP [10, 1, 2, 3] 3, .insertNet (some (net4 10 0 0 7 8)) 2, .insertIP (v4in6 ++ [10, 0, 0, 1]) 1]

/-- C37: GetByNet is longest-prefix match in the family of its argument, over the full address length. -/
theorem C37_longest_match {t0 : Option (Tree V)} (h0 : EmptyT t0) (ops : List (Op V × Option (Fam × POp V))) (h : ∀ p ∈ ops, OpNet p.1 p.2)
    {n : IPNet} {f : Fam} {p : List Bool} (hn : IsNet n f p) :
    ∃ t r, IP.run t0 (ops.map Prod.fst) = some t ∧ GetByNet t (some n) = r.map .user ∧
      PMap.IsLongestMatch (lastNet (ops.filterMap Prod.snd) f) p r := by
  obtain ⟨t, h1, h2, h3⟩ := run_spec h0 ops h
  have hf : denT (base t) f = lastNet (ops.filterMap Prod.snd) f := funext fun q => h3 f q
  cases t with
  | none =>
    refine ⟨none, none, h1, rfl, .inr ⟨rfl, fun q _ => ?_⟩⟩
    rw [← h3, base_none, denT_new]
  | some t =>
    obtain ⟨r, r1, r2⟩ := getByNet_ok h2 hn
    exact ⟨some t, r, h1, r1, by rw [← hf]; exact r2⟩

example : (IP.run none sampleIP).map (fun t =>
    [net6 0x20 0x01 0 1 128, net6 0x20 0x01 0 2 128, net6 0x20 0x01 0 0 64, net6 0x20 0x01 0 0 63, net4 10 0 0 1 32, net4 10 1 2 3 32,
     net4 11 0 0 0 8].map (fun n => uval (GetByNet t (some n)))) =
    some [some 6, some 5, some 5, some 4, some 1, some 2, none] := by decide +kernel

/-- The concrete networks above do denote networks. -/
example : IsNet (net4 10 0 0 7 8) .v4 [false, false, false, false, true, false, true, false] := by
  refine ⟨rfl, rfl, by decide, by decide, by decide⟩
example : IsNet (net6 0x20 0x01 0 0 16) .v6 [false, false, true, false, false, false, false, false, false, false, false, false, false, false, false, true] := by
  refine ⟨rfl, rfl, by decide, by decide +kernel, by decide +kernel⟩

/-- C38: DeleteByNet removes exactly the networks of the family contained in its argument, and tells whether there was any;
without a deletion the same tree comes back. -/
theorem C38_delete {t0 : Option (Tree V)} (h0 : EmptyT t0) (ops : List (Op V × Option (Fam × POp V))) (h : ∀ p ∈ ops, OpNet p.1 p.2)
    {n : IPNet} {f : Fam} {p : List Bool} (hn : IsNet n f p) :
    ∃ t t' d, IP.run t0 (ops.map Prod.fst) = some t ∧ DeleteByNet t (some n) = some (t', d) ∧
      (d = true ↔ ∃ q v, p <+: q ∧ lastNet (ops.filterMap Prod.snd) f q = some v) ∧ (d = false → t' = t) ∧
      ∀ m g q, IsNet m g q → ∃ r, GetByNet t' (some m) = r.map .user ∧
        PMap.IsLongestMatch (fun s => if g = f ∧ p <+: s then none else lastNet (ops.filterMap Prod.snd) g s) q r := by
  obtain ⟨t, h1, h2, h3⟩ := run_spec h0 ops h
  cases t with
  | none =>
    have hz : ∀ g s, lastNet (ops.filterMap Prod.snd) g s = none := fun g s => by rw [← h3, base_none, denT_new]
    refine ⟨none, none, false, h1, rfl, by simp [hz], by simp, fun m g q hm => ⟨none, rfl, .inr ⟨rfl, fun s _ => ?_⟩⟩⟩
    simp [hz]
  | some t =>
    obtain ⟨t', d, d1, d2, d3, d4, d5⟩ := deleteByNet_ok h2 hn
    refine ⟨some t, some t', d, h1, d1, ?_, fun hd => by rw [d5 hd]; rfl, fun m g q hm => ?_⟩
    · rw [d4]; simp only [h3]
    · obtain ⟨r, r1, r2⟩ := getByNet_ok d2 hm
      refine ⟨r, r1, ?_⟩
      have e : denT t' g = fun s => if g = f ∧ p <+: s then none else lastNet (ops.filterMap Prod.snd) g s := by
        funext s; rw [d3, h3]
      rw [← e]; exact r2

example : (IP.run none sampleIP).map (fun t => [net4 10 0 0 0 8, net4 10 1 0 0 16, net6 0x20 0x01 0 0 64, net6 0x20 0x01 0 0 96, net6 0x20 0x01 0 0 127].map
      (fun n => ((DeleteByNet t (some n)).map fun x => (x.2, (Enumerate x.1).map Prod.snd)))) =
    some [some (true, [4, 5, 6]), some (false, [2, 1, 4, 5, 6]), some (true, [2, 1, 4]), some (true, [2, 1, 4, 5]), some (true, [2, 1, 4, 5])] := by
  decide +kernel

/-- C39: everything listed is stored, under a canonical network. -/
theorem C39_enumerate_sound {t0 : Option (Tree V)} (h0 : EmptyT t0) (ops : List (Op V × Option (Fam × POp V))) (h : ∀ p ∈ ops, OpNet p.1 p.2) :
    ∃ t, IP.run t0 (ops.map Prod.fst) = some t ∧
      (∀ x ∈ Enumerate t, ∃ f p, IsCanonNet x.1 f p ∧ lastNet (ops.filterMap Prod.snd) f p = some x.2) ∧
      (∀ f p v, lastNet (ops.filterMap Prod.snd) f p = some v → ∃ x ∈ Enumerate t, IsCanonNet x.1 f p ∧ x.2 = v) := by
  obtain ⟨t, h1, h2, h3⟩ := run_spec h0 ops h
  refine ⟨t, h1, ?_, ?_⟩
  · cases t with
    | none => intro x hx; simp [Enumerate] at hx
    | some t =>
      intro x hx
      obtain ⟨f, p, e1, e2⟩ := enumerate_sound h2 x hx
      exact ⟨f, p, e1, by rw [← h3]; exact e2⟩
  · intro f p v hv
    rw [← h3] at hv
    cases t with
    | none => rw [base_none, denT_new] at hv; cases hv
    | some t => exact enumerate_complete h2 hv

/-- C39: the listing is strictly ascending: IPv4 first, then by address, then by prefix length. -/
theorem C39_enumerate_sorted {t0 : Option (Tree V)} (h0 : EmptyT t0) (ops : List (Op V × Option (Fam × POp V))) (h : ∀ p ∈ ops, OpNet p.1 p.2) :
    ∃ t, IP.run t0 (ops.map Prod.fst) = some t ∧ (Enumerate t).Pairwise fun a b => NetBefore a.1 b.1 := by
  obtain ⟨t, h1, h2, _⟩ := run_spec h0 ops h
  refine ⟨t, h1, ?_⟩
  cases t with
  | none => simp [Enumerate]
  | some t => exact enumerate_sorted h2

omit [Inhabited V] in
/-- The order is strict, so no network is listed twice. -/
theorem C39_before_irrefl (a : IPNet) : ¬ NetBefore a a := by
  unfold NetBefore; omega

example : (IP.run none sampleIP).map Enumerate = some [
    (⟨[10, 0, 0, 0], [0xff, 0, 0, 0]⟩, 2), (⟨[10, 0, 0, 1], [0xff, 0xff, 0xff, 0xff]⟩, 1),
    (net6 0x20 0x01 0 0 16, 4), (net6 0x20 0x01 0 0 64, 5), (net6 0x20 0x01 0 1 128, 6)] := by decide +kernel

/-- C40: a malformed or missing network changes nothing and is never found. -/
theorem C40_malformed (t : Option (Tree V)) (v : V) :
    (∀ n : IPNet, (∀ f p, ¬ IsNet n f p) → InsertNet t (some n) v = some t ∧ DeleteByNet t (some n) = some (t, false) ∧ GetByNet t (some n) = none) ∧
    InsertNet t none v = some t ∧ DeleteByNet t none = some (t, false) ∧ GetByNet t none = none := by
  refine ⟨fun n hn => ⟨insertNet_bad hn v, deleteByNet_bad hn, getByNet_bad hn⟩, rfl, ?_, ?_⟩
  · cases t <;> rfl
  · cases t <;> rfl

omit [Inhabited V] in
/-- C40: what counts as malformed: lengths that do not fit or a mask that is not ones followed by zeros. -/
theorem C40_malformed_iff (n : IPNet) : (∃ f p, IsNet n f p) ↔
    n.ip.length = n.mask.length ∧ (n.ip.length = 4 ∨ n.ip.length = 16) ∧
    ∃ k, bitsBE n.mask = List.replicate k true ++ List.replicate (8 * n.mask.length - k) false ∧ k ≤ 8 * n.mask.length := by
  constructor
  · rintro ⟨f, p, h1, h2, h3, h4, _⟩
    refine ⟨by rw [h1, h2], ?_, p.length, by rw [h2]; exact h4, by rw [h2]; exact h3⟩
    rw [h1]; cases f <;> simp [Fam.len]
  · rintro ⟨h1, h2, k, h3, h4⟩
    have go : ∀ f : Fam, n.ip.length = f.len → ∃ f p, IsNet n f p := by
      intro f hf
      have hm : n.mask.length = f.len := by omega
      have hk : ((bitsBE n.ip).take k).length = k := by simp; omega
      refine ⟨f, (bitsBE n.ip).take k, hf, hm, by omega, ?_, List.take_prefix _ _⟩
      rw [hk, h3, hm]
    rcases h2 with h2 | h2
    · exact go .v4 h2
    · exact go .v6 h2

/-- C40: a call concerning one family leaves all answers for the other family as they are. -/
theorem C40_families {t0 : Option (Tree V)} (h0 : EmptyT t0) (ops : List (Op V × Option (Fam × POp V))) (h : ∀ p ∈ ops, OpNet p.1 p.2)
    {op : Op V} {f g : Fam} {o : POp V} (ho : OpNet op (some (f, o))) (hfg : f ≠ g) {n : IPNet} {p : List Bool} (hn : IsNet n g p) :
    ∃ t t', IP.run t0 (ops.map Prod.fst) = some t ∧ IP.step t op = some t' ∧ GetByNet t' (some n) = GetByNet t (some n) := by
  obtain ⟨t, r, h1, h2, h3⟩ := C37_longest_match h0 ops h hn
  obtain ⟨t', r', h1', h2', h3'⟩ := C37_longest_match h0 ((op, some (f, o)) :: ops) (by
    intro x hx; simp only [List.mem_cons] at hx; rcases hx with rfl | hx
    · exact ho
    · exact h x hx) hn
  refine ⟨t, t', h1, ?_, ?_⟩
  · simpa [IP.run, h1] using h1'
  · have e : lastNet (List.filterMap Prod.snd ((op, some (f, o)) :: ops)) g = lastNet (ops.filterMap Prod.snd) g := by
      funext q
      change lastNet ((f, o) :: ops.filterMap Prod.snd) g q = _
      rw [lastNet_cons, if_neg (fun he => hfg he.symm)]
    rw [e] at h3'
    rw [h2, h2', Num.isLongestMatch_unique h3 h3']

example : (∀ f p, ¬ IsNet ⟨[10, 0, 0, 0], [0xff, 0, 0xff, 0]⟩ f p) ∧ (∀ f p, ¬ IsNet ⟨v4in6 ++ [10, 0, 0, 0], [0xff, 0, 0, 0]⟩ f p) := by
  constructor
  · intro f p h
    cases f with
    | v4 => exact absurd (v4Key_of_isNet h) (by
        rintro ⟨k, b, h1, _⟩
        rw [show v4Key ⟨[10, 0, 0, 0], [0xff, 0, 0xff, 0]⟩ = none by decide] at h1
        cases h1)
    | v6 => exact absurd h.1 (by decide)
  · intro f p h
    cases f with
    | v4 => exact absurd h.1 (by decide)
    | v6 => exact absurd h.2.1 (by decide)

/-- C41: single-address calls act as calls for the full-length network of the address. -/
theorem C41_addr {ip : Bytes} {f : Fam} {p : List Bool} (h : IsAddr ip f p) :
    ∃ n, IsNet n f p ∧ p.length = 8 * f.len ∧ ∀ (t : Option (Tree V)) (v : V),
      InsertIP t ip v = InsertNet t (some n) v ∧ GetByIP t ip = GetByNet t (some n) ∧ DeleteByIP t ip = DeleteByNet t (some n) := by
  obtain ⟨n, h1, h2⟩ := newIPNet_of_addr h
  refine ⟨n, h2, ?_, fun t v => by simp [InsertIP, GetByIP, DeleteByIP, h1]⟩
  cases h with
  | v4 hl => simp [hl, Fam.len]
  | mapped hl => simp [hl, Fam.len]
  | v6 hl _ => simp [hl, Fam.len]

omit [Inhabited V] in
/-- C41: which byte strings are addresses. -/
theorem C41_addr_iff (ip : Bytes) : (∃ f p, IsAddr ip f p) ↔ ip.length = 4 ∨ ip.length = 16 := by
  constructor
  · rintro ⟨f, p, h⟩
    cases h with
    | v4 hl => exact .inl hl
    | mapped hl => right; simp [v4in6, hl]
    | v6 hl _ => exact .inr hl
  · rintro (h | h)
    · exact ⟨_, _, .v4 h⟩
    · by_cases hp : v4in6 <+: ip
      · obtain ⟨tl, rfl⟩ := hp
        exact ⟨_, _, .mapped (by simp [v4in6] at h; omega)⟩
      · exact ⟨_, _, .v6 h hp⟩

/-- C41: any other length is a no-op. -/
theorem C41_other_length (t : Option (Tree V)) (v : V) {ip : Bytes} (h4 : ip.length ≠ 4) (h16 : ip.length ≠ 16) :
    InsertIP t ip v = some t ∧ GetByIP t ip = none ∧ DeleteByIP t ip = some (t, false) := by
  have h : newIPNetFromIP ip = none := newIPNet_none fun f p hp => by
    rcases (C41_addr_iff ip).1 ⟨f, p, hp⟩ with h | h
    · exact h4 h
    · exact h16 h
  simp only [InsertIP, GetByIP, DeleteByIP, h]
  cases t <;> exact ⟨rfl, rfl, rfl⟩

/-- An IPv4-mapped address and its 4-byte form are the same key; the other 16-byte addresses are not IPv4. -/
example : (InsertIP (V := Nat) none (v4in6 ++ [1, 2, 3, 4]) 7).map (fun t =>
    (uval (GetByIP t [1, 2, 3, 4]), uval (GetByIP t (List.replicate 12 0 ++ [1, 2, 3, 4])), uval (GetByIP t [1, 2, 3]))) =
    some (some 7, none, none) := by decide +kernel

/-- C44: no history panics; in particular the explicit panics of InsertNet and DeleteByNet are unreachable. -/
theorem C44_no_panic {t0 : Option (Tree V)} (h0 : EmptyT t0) (ops : List (Op V)) :
    ∃ t, IP.run t0 ops = some t ∧ (∀ n v, InsertNet t n v ≠ none) ∧ (∀ n, DeleteByNet t n ≠ none) := by
  have hm : ∀ ops : List (Op V), ∃ xs : List (Op V × Option (Fam × POp V)), xs.map Prod.fst = ops ∧ ∀ p ∈ xs, OpNet p.1 p.2 := by
    intro ops
    induction ops with
    | nil => exact ⟨[], rfl, by simp⟩
    | cons op ops ih =>
      obtain ⟨xs, h1, h2⟩ := ih
      obtain ⟨o, ho⟩ := OpNet.total op
      refine ⟨(op, o) :: xs, by simp [h1], ?_⟩
      intro p hp; simp only [List.mem_cons] at hp; rcases hp with rfl | hp
      · exact ho
      · exact h2 p hp
  have ex : ∀ ops : List (Op V), ∃ t, IP.run t0 ops = some t := by
    intro ops
    obtain ⟨xs, rfl, h2⟩ := hm ops
    obtain ⟨t, ht, _⟩ := run_spec h0 xs h2
    exact ⟨t, ht⟩
  obtain ⟨t, ht⟩ := ex ops
  refine ⟨t, ht, fun n v hn => ?_, fun n hn => ?_⟩
  · obtain ⟨t', h'⟩ := ex (.insertNet n v :: ops)
    simp [IP.run, ht, IP.step, hn] at h'
  · obtain ⟨t', h'⟩ := ex (.deleteByNet n :: ops)
    simp [IP.run, ht, IP.step, hn] at h'

/-- The panic is really in the model: a user value at 64 bits would trigger it. -/
example : InsertNet (V := Nat) (some ⟨.nil, Num.Insert .nil 0#64 64 (.user 1)⟩) (some (net6 0 0 0 0 64)) 2 = none := by rfl

omit [Inhabited V] in
/-- C46: packing and unpacking are inverse. -/
theorem C46_round_trip :
    (∀ x : Bytes, x.length = 4 → unpack32 (pack32 x) = x) ∧ (∀ x : Bytes, x.length = 8 → unpack64 (pack64 x) = x) ∧
    (∀ k, pack32 (unpack32 k) = k) ∧ (∀ k, pack64 (unpack64 k) = k) :=
  ⟨unpack32_pack32, unpack64_pack64, pack32_unpack32, pack64_unpack64⟩

omit [Inhabited V] in
/-- C46: bit `i` of the word is bit `i` of the address in network order. -/
theorem C46_bits :
    (∀ x : Bytes, x.length = 4 → ∀ i, i < 32 → (bitsBE x)[i]? = some ((pack32 x).getMsbD i)) ∧
    (∀ x : Bytes, x.length = 8 → ∀ i, i < 64 → (bitsBE x)[i]? = some ((pack64 x).getMsbD i)) := by
  constructor
  · intro x hx i hi
    rw [← sig_pack32 x hx, List.getElem?_eq_getElem (by simpa using hi), Num.getElem_sig]
  · intro x hx i hi
    rw [← sig_pack64 x hx, List.getElem?_eq_getElem (by simpa using hi), Num.getElem_sig]

example : pack32 [192, 168, 1, 2] = 0xc0a80102#32 ∧ unpack32 0x0a0b0c0d#32 = [10, 11, 12, 13] ∧
    pack64 [0x20, 1, 0xd, 0xb8, 0, 0, 0, 1] = 0x20010db800000001#64 := by decide

end Verif.Props
