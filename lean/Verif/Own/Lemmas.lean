import Verif.Own.Model
import Verif.IP.Lemmas

/-! # Lemmas about the byte slices behind the keys -/

namespace Verif.Own
open Verif Verif.Num Verif.IP

variable {A V : Type}

/-- Forget array `a`. -/
def drop (K : Mem) (a : Nat) : Mem := fun x => if x = a then none else K x

/-- Code that knows the content `K` of some arrays, touches only those, and hands out `es`. -/
def Safe : Mem → Code A → List (IPNet × A) → Prop
  | _, .done, es => es = []
  | K, .make c k, es => ∀ a, K a = none → Safe (K.set a c) (k a) es
  | K, .read a k, es => ∃ b, K a = some b ∧ Safe K (k b) es
  | K, .write a off c k, es => ∃ b, K a = some b ∧ off + c.length ≤ b.length ∧ Safe (K.set a (splice b off c)) k es
  | K, .give ip m v k, es => ∃ bi bm rest, K ip.arr = some bi ∧ K m.arr = some bm ∧ ip.arr ≠ m.arr ∧
      es = (⟨ip.of bi, m.of bm⟩, v) :: rest ∧ Safe (drop (drop K ip.arr) m.arr) k rest

theorem Mem.set_self (K : Mem) (a : Nat) (b : Bytes) : K.set a b a = some b := by simp [Mem.set]
theorem Mem.set_other {K : Mem} {a x : Nat} (b : Bytes) (h : x ≠ a) : K.set a b x = K x := by simp [Mem.set, h]
theorem drop_other {K : Mem} {a x : Nat} (h : x ≠ a) : drop K a x = K x := by simp [drop, h]

theorem ne_of_none {K : Mem} {a x : Nat} {b : Bytes} (ha : K a = none) (hx : K x = some b) : x ≠ a := by
  rintro rfl; simp [ha] at hx

/-- The state of a run: what the code knows is so and is not the client's. -/
def Inv (total : List (IPNet × A)) (c : Conf A) : Prop :=
  ∃ K es, (∀ a b, K a = some b → c.mem a = some b ∧ ¬ c.owned a) ∧ (∀ a, c.owned a → c.mem a ≠ none) ∧ Safe K c.code es ∧ c.log ++ es = total

theorem inv_code {total : List (IPNet × A)} {c d : Conf A} (h : Inv total c) (hs : CodeStep c d) : Inv total d := by
  obtain ⟨K, es, hK, hO, hS, hT⟩ := h
  cases hs with
  | @make m o ct k log a ha =>
    have hKa : K a = none := by
      cases hk : K a with
      | none => rfl
      | some b => have := (hK a b hk).1; simp_all
    have hoa : ¬ o a := fun h => hO a h ha
    refine ⟨K.set a ct, es, ?_, ?_, hS a hKa, hT⟩
    · intro x b hx
      by_cases e : x = a
      · subst e; rw [Mem.set_self] at hx; exact ⟨by simpa [Mem.set] using hx, hoa⟩
      · rw [Mem.set_other _ e] at hx; exact ⟨by simpa [Mem.set, e] using (hK x b hx).1, (hK x b hx).2⟩
    · intro x hx
      by_cases e : x = a
      · subst e; simp [Mem.set]
      · simpa [Mem.set, e] using hO x hx
  | @read m o a k log b ha =>
    obtain ⟨b', hb', hS⟩ := hS
    have : b' = b := by have := (hK a b' hb').1; simp_all
    subst this
    exact ⟨K, es, hK, hO, hS, hT⟩
  | @write m o a off ct k log b ha hl =>
    obtain ⟨b', hb', _, hS⟩ := hS
    have : b' = b := by have := (hK a b' hb').1; simp_all
    subst this
    refine ⟨K.set a _, es, ?_, ?_, hS, hT⟩
    · intro x b hx
      by_cases e : x = a
      · subst e; rw [Mem.set_self] at hx; exact ⟨by simpa [Mem.set] using hx, (hK x b' hb').2⟩
      · rw [Mem.set_other _ e] at hx; exact ⟨by simpa [Mem.set, e] using (hK x b hx).1, (hK x b hx).2⟩
    · intro x hx
      by_cases e : x = a
      · subst e; simp [Mem.set]
      · simpa [Mem.set, e] using hO x hx
  | @give m o ip mk v k log bi bm hi hm =>
    obtain ⟨bi', bm', rest, h1, h2, _, h4, hS⟩ := hS
    have e1 : bi' = bi := by have := (hK _ _ h1).1; simp_all
    have e2 : bm' = bm := by have := (hK _ _ h2).1; simp_all
    subst e1 e2
    refine ⟨_, rest, ?_, ?_, hS, ?_⟩
    · intro x b hx
      by_cases e : x = mk.arr
      · simp [drop, e] at hx
      · by_cases e' : x = ip.arr
        · simp [drop, e'] at hx
        · rw [drop_other e, drop_other e'] at hx
          refine ⟨(hK x b hx).1, ?_⟩
          rintro (h | h | h)
          · exact (hK x b hx).2 h
          · exact e' h
          · exact e h
    · rintro x (hx | hx | hx)
      · exact hO x hx
      · subst hx; simp [hi]
      · subst hx; simp [hm]
    · rw [← hT, h4]; simp

theorem inv_client {total : List (IPNet × A)} {c d : Conf A} (h : Inv total c) (hs : ClientStep c d) : Inv total d := by
  obtain ⟨K, es, hK, hO, hS, hT⟩ := h
  cases hs with
  | @any m m' o o' code log h1 h1' h2 =>
    refine ⟨K, es, ?_, ?_, hS, hT⟩
    · intro a b ha
      obtain ⟨x, y⟩ := hK a b ha
      refine ⟨by rw [← x]; exact h1 a y (by simp_all), fun h => ?_⟩
      rcases (h2 a).1 h with h | ⟨h, _⟩
      · exact y h
      · simp_all
    · intro a ha
      rcases (h2 a).1 ha with h | ⟨_, h⟩
      · exact h1' a h (hO a h)
      · exact h

theorem inv_reach {total : List (IPNet × A)} {c d : Conf A} (h : Inv total c) (hr : Runs c d) : Inv total d := by
  induction hr with
  | refl => exact h
  | code _ hs ih => exact inv_code ih hs
  | client _ hs ih => exact inv_client ih hs

/-! ## The loops -/

theorem of_full (b : Bytes) (a : Nat) (n : Nat) (h : n = b.length) : (Slice.mk a 0 n n).of b = b := by simp [Slice.of, h]

/-- What the loops need of `MSIP`: an array of its own with room for 16 bytes, the first 8 of them right. -/
def Ms (K : Mem) (ms : Slice) (u : Bytes) : Prop :=
  ∃ c, K ms.arr = some c ∧ ms.off = 0 ∧ ms.len = 16 ∧ 16 ≤ ms.cap ∧ 16 ≤ c.length ∧ c.take 8 = u

theorem unpack64_length (k : BitVec 64) : (unpack64 k).length = 8 := by simp [unpack64]

theorem safe_mask {K : Mem} {ip m : Slice} {bi bm : Bytes} {k : Slice → Code A} {es} (h1 : K ip.arr = some bi) (h2 : K m.arr = some bm)
    (h : ∀ a, K a = none → Safe (K.set a (maskIP (ip.of bi) (m.of bm))) (k ⟨a, 0, (maskIP (ip.of bi) (m.of bm)).length, (maskIP (ip.of bi) (m.of bm)).length⟩) es) :
    Safe K (mask ip m k) es := ⟨bi, h1, bm, h2, h⟩

theorem safe_loop4 {k : Code V} {es} (hk : ∀ K, Safe K k es) (ns : List (ND 32 V)) :
    ∀ K, Safe K (loop4 ns k) (ns.map (fun n => (key4 n, n.value)) ++ es) := by
  induction ns with
  | nil => exact hk
  | cons n ns ih =>
    intro K m hm u hu
    have hmu : m ≠ u := ne_of_none hu (Mem.set_self _ _ _)
    refine safe_mask (bi := unpack32 n.key) (bm := cidrMask n.bits 32) (Mem.set_self _ _ _) (by rw [Mem.set_other _ hmu]; exact Mem.set_self _ _ _) ?_
    intro ip hip
    have h1 : m ≠ ip := ne_of_none (b := cidrMask n.bits 32) hip (by rw [Mem.set_other _ hmu]; exact Mem.set_self _ _ _)
    rw [of_full _ _ _ rfl, of_full _ _ _ rfl]
    refine ⟨_, cidrMask n.bits 32, ns.map (fun n => (key4 n, n.value)) ++ es, Mem.set_self _ _ _,
      by rw [Mem.set_other _ h1, Mem.set_other _ hmu]; exact Mem.set_self _ _ _, Ne.symm h1, ?_, ih _⟩
    rw [of_full _ _ _ rfl, of_full _ _ _ rfl]
    rfl

theorem safe_msip (extra : Nat) (key : BitVec 64) {k : Slice → Code V} {es} {K : Mem}
    (hk : ∀ K ms c, K ms.arr = some c → c = unpack64 key ++ List.replicate 8 0 ++ List.replicate extra 0 → ms.off = 0 → ms.len = 16 → ms.cap = 16 + extra → Safe K (k ms) es) :
    Safe K (msip extra key k) es := by
  intro u hu z hz
  have huz : u ≠ z := ne_of_none hz (Mem.set_self _ _ _)
  refine ⟨List.replicate 8 0, Mem.set_self _ _ _, ?_⟩
  simp only [unpack64_length, List.length_replicate]
  rw [if_neg (by omega)]
  refine ⟨unpack64 key, by rw [Mem.set_other _ huz]; exact Mem.set_self _ _ _, fun a ha => ?_⟩
  refine hk _ _ _ (Mem.set_self _ _ _) ?_ rfl rfl rfl
  rw [of_full _ _ _ (unpack64_length _).symm, of_full _ _ _ (by simp)]

theorem ms_of {K : Mem} {ms : Slice} {extra : Nat} {key : BitVec 64} {c : Bytes} (h1 : K ms.arr = some c)
    (h2 : c = unpack64 key ++ List.replicate 8 0 ++ List.replicate extra 0) (h3 : ms.off = 0) (h4 : ms.len = 16) (h5 : ms.cap = 16 + extra) :
    Ms K ms (unpack64 key) :=
  ⟨c, h1, h3, h4, by omega, by simp [h2]; omega, by
    rw [h2, List.append_assoc]
    exact List.take_left' (unpack64_length _)⟩

theorem splice_take {c u v : Bytes} (h : c.take 8 = u) (hc : 16 ≤ c.length) (hv : v.length = 8) :
    (splice c 8 v).take 16 = u ++ v ∧ (splice c 8 v).take 8 = u ∧ 16 ≤ (splice c 8 v).length := by
  have hu : u.length = 8 := by rw [← h, List.length_take]; omega
  unfold splice
  rw [h]
  refine ⟨List.take_left' (by simp [hu, hv]), ?_, by simp [hu, hv]; omega⟩
  rw [List.append_assoc]
  exact List.take_left' hu

theorem safe_loopSub (extra : Nat) {ms : Slice} {key : BitVec 64} {base : Nat} {k : Code V} {es} (hk : ∀ K, Safe K k es) (ns : List (ND 64 V)) :
    ∀ K, Ms K ms (unpack64 key) → Safe K (loopSub extra ms base ns k)
      (ns.map (fun n => (⟨maskIP (unpack64 key ++ unpack64 n.key) (cidrMask (base + n.bits) 128), cidrMask (base + n.bits) 128⟩, n.value)) ++ es) := by
  induction ns with
  | nil => exact fun K _ => hk K
  | cons n ns ih =>
    rintro K ⟨c, hc, h0, hl, hcap, hlen, htake⟩ ls hls m hm
    have e1 : ms.arr ≠ ls := ne_of_none hls hc
    have e2 : ls ≠ m := ne_of_none hm (Mem.set_self _ _ _)
    have e3 : ms.arr ≠ m := ne_of_none hm (by rw [Mem.set_other _ e1]; exact hc)
    refine ⟨unpack64 n.key, by rw [Mem.set_other _ e2]; exact Mem.set_self _ _ _, ?_⟩
    simp only [unpack64_length, Slice.upto]
    rw [if_pos (by omega)]
    have hw := splice_take (v := unpack64 n.key) htake hlen (unpack64_length _)
    refine ⟨c, by rw [Mem.set_other _ e3, Mem.set_other _ e1]; exact hc, ?_, ?_⟩
    · rw [of_full _ _ _ (unpack64_length _).symm, unpack64_length]; omega
    rw [of_full _ _ _ (unpack64_length _).symm, h0]
    refine safe_mask (bi := splice c 8 (unpack64 n.key)) (bm := cidrMask (base + n.bits) 128) (by simp [Mem.set])
      (by rw [Mem.set_other _ (Ne.symm e3)]; exact Mem.set_self _ _ _) ?_
    intro ip hip
    have e4 : m ≠ ip := ne_of_none (b := cidrMask (base + n.bits) 128) hip (by rw [Mem.set_other _ (Ne.symm e3)]; exact Mem.set_self _ _ _)
    have e5 : ms.arr ≠ ip := ne_of_none hip (Mem.set_self _ _ _)
    have e6 : (Slice.mk ms.arr 0 (8 + 8) ms.cap).of (splice c 8 (unpack64 n.key)) = unpack64 key ++ unpack64 n.key := by
      simpa [Slice.of] using hw.1
    simp only [Nat.zero_add] at *
    rw [e6, of_full _ _ _ rfl]
    refine ⟨_, cidrMask (base + n.bits) 128, _, Mem.set_self _ _ _,
      by rw [Mem.set_other _ e4, Mem.set_other _ (Ne.symm e3)]; exact Mem.set_self _ _ _, Ne.symm e4, ?_, ih _ ?_⟩
    · rw [of_full _ _ _ rfl, of_full _ _ _ rfl]; rfl
    · refine ⟨splice c 8 (unpack64 n.key), ?_, h0, hl, hcap, hw.2.2, hw.2.1⟩
      rw [drop_other e3, drop_other e5, Mem.set_other _ e5]
      exact Mem.set_self _ _ _

/-- Masking and handing out the whole of `MSIP`. -/
theorem safe_user {W : Type} (extra : Nat) (n : ND 64 W) (v : V) {k : Code V} {es} (hk : ∀ K, Safe K k es) (K : Mem) {ms : Slice} {c : Bytes}
    (h1 : K ms.arr = some c) (h2 : c = unpack64 n.key ++ List.replicate 8 0 ++ List.replicate extra 0) (h3 : ms.off = 0) (h4 : ms.len = 16) :
    Safe K (cidr n.bits 128 fun m => mask ms m fun ip => .give ip m v k) ((key6 n, v) :: es) := by
  intro m hm
  have e1 : ms.arr ≠ m := ne_of_none hm h1
  refine safe_mask (bi := c) (bm := cidrMask n.bits 128) (by rw [Mem.set_other _ e1]; exact h1) (Mem.set_self _ _ _) ?_
  intro ip hip
  have e4 : m ≠ ip := ne_of_none hip (Mem.set_self _ _ _)
  have e6 : ms.of c = unpack64 n.key ++ List.replicate 8 0 := by
    simp only [Slice.of, h3, h4, h2, List.drop_zero]
    exact List.take_left' (by simp)
  rw [e6, of_full _ _ _ rfl]
  refine ⟨_, cidrMask n.bits 128, es, Mem.set_self _ _ _, by rw [Mem.set_other _ e4]; exact Mem.set_self _ _ _, Ne.symm e4, ?_, hk _⟩
  rw [of_full _ _ _ rfl, of_full _ _ _ rfl]
  rfl

theorem safe_loop6 (extra : Nat) {k : Code V} {es} (hk : ∀ K, Safe K k es) (ns : List (ND 64 (TV V))) :
    ∀ K, Safe K (loop6 extra ns k) (ns.flatMap IP.enum6 ++ es) := by
  induction ns with
  | nil => exact hk
  | cons n ns ih =>
    intro K
    refine safe_msip extra n.key fun K ms c h1 h2 h3 h4 h5 => ?_
    rw [List.flatMap_cons, List.append_assoc]
    unfold IP.enum6
    cases hv : n.value with
    | sub s => exact safe_loopSub extra ih (Num.Enumerate s) K (ms_of h1 h2 h3 h4 h5)
    | user v => exact safe_user extra n v ih K h1 h2 h3 h4

theorem safe_uloop6 (extra : Nat) {k : Code V} {es} (hk : ∀ K, Safe K k es) (ns : List (ND 64 (NTree 64 V))) :
    ∀ K, Safe K (uloop6 extra ns k) (ns.flatMap UIP.enum6 ++ es) := by
  induction ns with
  | nil => exact hk
  | cons n ns ih =>
    intro K
    refine safe_msip extra n.key fun K ms c h1 h2 h3 h4 h5 => ?_
    rw [List.flatMap_cons, List.append_assoc]
    exact safe_loopSub extra ih (Num.Enumerate n.value) K (ms_of h1 h2 h3 h4 h5)

theorem safe_updSub (extra : Nat) (key : BitVec 64) {k : Code V} {es} (hk : ∀ K, Safe K k es) (ns : List (ND 64 V)) :
    ∀ K, Safe K (updSub extra key ns k) (ns.map (fun n => (key6s key n, n.value)) ++ es) := by
  induction ns with
  | nil => exact hk
  | cons n ns ih =>
    intro K
    refine safe_msip extra key fun K ms c h1 h2 h3 h4 h5 => ?_
    exact safe_loopSub extra ih [n] K (ms_of h1 h2 h3 h4 h5)

theorem safe_updTop (extra : Nat) {k : Code V} {es} (hk : ∀ K, Safe K k es) (ns : List (ND 64 (TV V))) :
    ∀ K, Safe K (updTop extra ns k) (ns.flatMap IP.enum6 ++ es) := by
  induction ns with
  | nil => exact hk
  | cons n ns ih =>
    intro K
    rw [List.flatMap_cons, List.append_assoc]
    unfold IP.enum6 updTop
    cases hv : n.value with
    | sub s => exact safe_msip extra n.key fun K ms c h1 h2 h3 h4 h5 => safe_loopSub extra ih (Num.Enumerate s) K (ms_of h1 h2 h3 h4 h5)
    | user v => exact safe_msip extra n.key fun K ms c h1 h2 h3 h4 h5 => safe_user extra n v ih K h1 h2 h3 h4

theorem safe_enum (extra : Nat) (t : Option (IP.Tree V)) (K : Mem) : Safe K (enumCode extra t) (IP.Enumerate t) := by
  cases t with
  | none => rfl
  | some t =>
    have h := safe_loop4 (safe_loop6 extra (fun _ => show Safe _ Code.done [] from rfl) (Num.Enumerate t.root64)) (Num.Enumerate t.root32) K
    simpa [enumCode, IP.Enumerate] using h

theorem safe_uenum (extra : Nat) (t : Option (UIP.Tree V)) (K : Mem) : Safe K (uenumCode extra t) (UIP.Enumerate t) := by
  cases t with
  | none => rfl
  | some t =>
    have h := safe_loop4 (safe_uloop6 extra (fun _ => show Safe _ Code.done [] from rfl) (Num.Enumerate t.root64)) (Num.Enumerate t.root32) K
    simpa [uenumCode, UIP.Enumerate] using h

/-! ## The callbacks of UpdateDescendants -/

/-- A callback that notes its arguments and answers `ans`. -/
def noting (ans : List (IPNet × V) → IPNet → V → V × Bool) (s : List (IPNet × V)) (k : IPNet) (v : V) : (V × Bool) × List (IPNet × V) :=
  (ans s k v, s ++ [(k, v)])

theorem updWalk_log {w : Nat} {W E : Type} {f : ND w W → List E → W × List E} {g : ND w W → List E}
    (hf : ∀ n s, (f n s).2 = s ++ g n) (t : NTree w W) : ∀ s, (updWalk f t s).2 = s ++ (Num.Enumerate t).flatMap g := by
  induction t with
  | nil => simp [updWalk, Num.Enumerate, Num.enumerate]
  | node n l r ihl ihr =>
    intro s
    simp only [Num.Enumerate] at ihl ihr ⊢
    simp only [updWalk, Num.enumerate, ihr, ihl]
    cases n.leaf <;> simp [hf, List.append_assoc]

theorem updDesc_log {w : Nat} {W E : Type} {f : ND w W → List E → W × List E} {g : ND w W → List E}
    (hf : ∀ n s, (f n s).2 = s ++ g n) (t : NTree w W) (s : List E) : (updDesc f t s).2 = s ++ (below t).flatMap g := by
  cases t with
  | nil => simp [updDesc, below]
  | node n l r => simp [updDesc, below, updWalk_log hf, List.append_assoc]

theorem updTarget_log {w : Nat} [KeySize w] {W σ : Type} (G : NTree w W → σ → NTree w W × σ) (hG : ∀ s, (G .nil s).2 = s) (t : NTree w W) (k : BitVec w) (b : Nat) (s : σ) :
    (updTarget G t k b s).2 = (G (Num.exactMatch t k b) s).2 := by
  induction t with
  | nil => simp [updTarget, Num.exactMatch, hG]
  | node n l r ihl ihr =>
    unfold updTarget Num.exactMatch
    split
    · simp [hG]
    · split
      · split <;> simp_all
      · split
        · simp [hG]
        · split <;> simp_all

theorem callBack_log (ans : List (IPNet × V) → IPNet → V → V × Bool) (k : IPNet) (v : V) (s : List (IPNet × V)) :
    (callBack (noting ans) k v s).2 = s ++ [(k, v)] := rfl

theorem safe_upd (extra : Nat) (ans : List (IPNet × V) → IPNet → V → V × Bool) (t : Option (IP.Tree V)) (n : Option IPNet) :
    (updCode extra t n = none ↔ UpdateDescendants (noting ans) t n [] = none) ∧
    ∀ c t' es, updCode extra t n = some c → UpdateDescendants (noting ans) t n [] = some (t', es) → ∀ K, Safe K c es := by
  have hd : ∀ K, Safe K (Code.done : Code V) [] := fun _ => rfl
  cases n with
  | none => simp [updCode, UpdateDescendants]
  | some n =>
    simp only [updCode, UpdateDescendants]
    cases h4 : v4Key n with
    | some kb =>
      obtain ⟨key, bits⟩ := kb
      cases t with
      | none => simp
      | some t =>
        refine ⟨by simp, ?_⟩
        intro c t' es hc hu K
        simp only [Option.map_some, Option.some.injEq] at hc hu
        have hu2 := congrArg Prod.snd hu
        simp only at hu2
        rw [updTarget_log _ (fun s => rfl), updDesc_log (g := fun m => [(key4 m, m.value)]) (fun _ _ => rfl)] at hu2
        subst hc hu2
        have := safe_loop4 hd (below (Num.FindNode t.root32 key bits)) K
        simpa [← List.map_eq_flatMap, Num.FindNode] using this
    | none =>
      cases h6 : v6Pair n with
      | none =>
        simp only [reduceCtorEq, Option.some.injEq, Prod.mk.injEq, true_and]
        rintro c t' es rfl ⟨_, rfl⟩ K
        rfl
      | some k =>
        cases t with
        | none => simp
        | some t =>
          refine ⟨by simp, ?_⟩
          intro c t' es hc hu K
          simp only [Option.map_some, Option.some.injEq] at hc hu
          have hu2 := congrArg Prod.snd hu
          simp only at hu2
          rw [updTarget_log _ (fun s => rfl)] at hu2
          subst hc hu2
          change Safe K (updCode6 extra k (Num.exactMatch t.root64 k.msKey (clamp 64 k.msBits))) _
          generalize Num.exactMatch t.root64 k.msKey (clamp 64 k.msBits) = target
          cases target with
          | nil => rfl
          | node d l r =>
            simp only [updCode6, updTarget6]
            cases hv : d.value with
            | sub s2 =>
              simp only [IP.updSub]
              have hls : (clamp 64 (k.lsBits : Int)) = k.lsBits := by
                have := (v6Pair_some h6).1.ls
                unfold clamp; split <;> (try split) <;> omega
              have hs : (IP.updSub (noting ans) k s2 []).2 = (below (subTarget k s2)).flatMap fun m => [(key6s k.msKey m, m.value)] := by
                cases s2 with
                | nil => rfl
                | node m l r =>
                  simp only [IP.updSub, subTarget]
                  split
                  · rw [updDesc_log (g := fun m => [(key6s k.msKey m, m.value)]) (fun _ _ => rfl)]; rfl
                  · rw [updTarget_log _ (fun s => rfl), updDesc_log (g := fun m => [(key6s k.msKey m, m.value)]) (fun _ _ => rfl)]
                    simp only [Num.FindNode, hls]; rfl
              have := safe_updSub extra k.msKey hd (below (subTarget k s2)) K
              simp only [IP.updSub] at hs
              rw [hs]
              simpa [← List.map_eq_flatMap] using this
            | user v =>
              simp only
              rw [updDesc_log (g := IP.enum6)]
              · have := safe_updTop extra hd (below (.node d l r)) K
                simpa using this
              · intro n s
                unfold upd6 IP.enum6
                cases n.value with
                | sub t =>
                  simp only
                  rw [updWalk_log (g := fun m => [(key6s n.key m, m.value)]) (fun _ _ => rfl)]
                  simp [← List.map_eq_flatMap]
                | user v => rfl

/-! ## Ends -/

/-- A code step is possible whenever the code is not done. -/
theorem inv_step {total : List (IPNet × A)} {c : Conf A} (h : Inv total c) (hf : ∃ a, c.mem a = none) (hd : c.code ≠ .done) : ∃ d, CodeStep c d := by
  obtain ⟨m, o, code, log⟩ := c
  obtain ⟨K, es, hK, hO, hS, hT⟩ := h
  cases code with
  | done => exact absurd rfl hd
  | make c k => obtain ⟨a, ha⟩ := hf; exact ⟨_, .make a ha⟩
  | read a k => obtain ⟨b, hb, _⟩ := hS; exact ⟨_, .read (hK a b hb).1⟩
  | write a off c k => obtain ⟨b, hb, hl, _⟩ := hS; exact ⟨_, .write (hK a b hb).1 hl⟩
  | give ip mk v k => obtain ⟨bi, bm, _, h1, h2, _⟩ := hS; exact ⟨_, .give (hK _ _ h1).1 (hK _ _ h2).1⟩

theorem client_code {c d : Conf A} (h : ClientStep c d) : d.code = c.code := by cases h; rfl

/-- In a run of infinitely many steps only finitely many are the code's. -/
theorem finite_code (code : Code A) : ∀ f : Nat → Conf A, (f 0).code = code → (∀ i, CodeStep (f i) (f (i + 1)) ∨ ClientStep (f i) (f (i + 1))) →
    ∃ n, ∀ i, n ≤ i → ¬ CodeStep (f i) (f (i + 1)) := by
  have key : ∀ code : Code A, (∀ c d : Conf A, c.code = code → CodeStep c d → ∀ f : Nat → Conf A, (f 0).code = d.code →
      (∀ i, CodeStep (f i) (f (i + 1)) ∨ ClientStep (f i) (f (i + 1))) → ∃ n, ∀ i, n ≤ i → ¬ CodeStep (f i) (f (i + 1))) →
      ∀ f : Nat → Conf A, (f 0).code = code → (∀ i, CodeStep (f i) (f (i + 1)) ∨ ClientStep (f i) (f (i + 1))) →
      ∃ n, ∀ i, n ≤ i → ¬ CodeStep (f i) (f (i + 1)) := by
    intro code ih f h0 hs
    by_cases hx : ∃ i, CodeStep (f i) (f (i + 1)) ∧ (f i).code = code
    · obtain ⟨i, hi, hc⟩ := hx
      obtain ⟨n, hn⟩ := ih (f i) (f (i + 1)) hc hi (fun j => f (j + (i + 1))) (by simp) (fun j => by
        have := hs (j + (i + 1)); rwa [show j + (i + 1) + 1 = j + 1 + (i + 1) by omega] at this)
      refine ⟨n + (i + 1), fun j hj => ?_⟩
      have : ¬ CodeStep (f (j - (i + 1) + (i + 1))) (f (j - (i + 1) + 1 + (i + 1))) := hn (j - (i + 1)) (by omega)
      rwa [show j - (i + 1) + (i + 1) = j by omega, show j - (i + 1) + 1 + (i + 1) = j + 1 by omega] at this
    · suffices h : ∀ i, (f i).code = code from ⟨0, fun i _ hi => hx ⟨i, hi, h i⟩⟩
      intro i
      induction i with
      | zero => exact h0
      | succ i ih' =>
        rcases hs i with h | h
        · exact absurd ⟨i, h, ih'⟩ hx
        · rw [client_code h, ih']
  induction code with
  | done =>
    apply key
    rintro c d hc hs
    cases hs <;> simp at hc
  | make ct k ih =>
    apply key
    rintro c d hc hs
    cases hs <;> simp at hc
    obtain ⟨rfl, rfl⟩ := hc
    exact ih _
  | read a k ih =>
    apply key
    rintro c d hc hs
    cases hs <;> simp at hc
    obtain ⟨rfl, rfl⟩ := hc
    exact ih _
  | write a off ct k ih =>
    apply key
    rintro c d hc hs
    cases hs <;> simp at hc
    obtain ⟨rfl, rfl, rfl, rfl⟩ := hc
    exact ih
  | give ip mk v k ih =>
    apply key
    rintro c d hc hs
    cases hs <;> simp at hc
    obtain ⟨rfl, rfl, rfl, rfl⟩ := hc
    exact ih

end Verif.Own
