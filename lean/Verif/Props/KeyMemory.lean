import Verif.Own.Lemmas
import Verif.Props.Iptree
import Verif.Props.UIptree

/-!
# Property C76: the keys iptree hands out belong to whoever receives them

`Enumerate` of iptree and of uintX/iptreeX sends `*net.IPNet` keys, and `UpdateDescendants` passes them to its callback.  The receiver may
do with them what it likes, at once or while the walk goes on.
-/

namespace Verif.Props
open Verif Verif.Num Verif.IP Verif.Own

section
variable {A : Type}

/-- The code, run beside a client that may at any moment change the arrays it has and make new ones, hands out `total` and nothing else,
and the arrays it hands out are the client's alone. -/
structure HandsOver (code : Code A) (total : List (IPNet × A)) : Prop where
  /-- What has been handed out, read at that moment, is a beginning of `total`. -/
  sent : ∀ m o, (∀ a, o a → m a ≠ none) → ∀ c, Runs ⟨m, o, code, []⟩ c → c.log <+: total
  /-- In the end it is all of it. -/
  all : ∀ m o, (∀ a, o a → m a ≠ none) → ∀ c, Runs ⟨m, o, code, []⟩ c → c.code = .done → c.log = total
  /-- An array handed out was not the client's before, so it is none of those handed out earlier; address and mask are in different arrays. -/
  new : ∀ m o, (∀ a, o a → m a ≠ none) → ∀ c, Runs ⟨m, o, code, []⟩ c → ∀ ip mk v k, c.code = .give ip mk v k →
    ¬ c.owned ip.arr ∧ ¬ c.owned mk.arr ∧ ip.arr ≠ mk.arr
  /-- The code does not look at the client's arrays again, -/
  untouched : ∀ m o, (∀ a, o a → m a ≠ none) → ∀ c, Runs ⟨m, o, code, []⟩ c → ∀ a, Touches c.code a → ¬ c.owned a
  /-- and leaves them as they are. -/
  kept : ∀ m o, (∀ a, o a → m a ≠ none) → ∀ c d, Runs ⟨m, o, code, []⟩ c → CodeStep c d → ∀ a, c.owned a → d.owned a ∧ d.mem a = c.mem a
  /-- The code is never stuck, whatever the client does (as long as there is memory). -/
  goesOn : ∀ m o, (∀ a, o a → m a ≠ none) → ∀ c, Runs ⟨m, o, code, []⟩ c → (∃ a, c.mem a = none) → c.code ≠ .done → ∃ d, CodeStep c d
  /-- It ends after finitely many steps of its own. -/
  ends : ∀ f : Nat → Conf A, (f 0).code = code → (∀ i, CodeStep (f i) (f (i + 1)) ∨ ClientStep (f i) (f (i + 1))) →
    ∃ n, ∀ i, n ≤ i → ¬ CodeStep (f i) (f (i + 1))

theorem handsOver {code : Code A} {total : List (IPNet × A)} (h : ∀ K, Safe K code total) : HandsOver code total := by
  have hi : ∀ m o, (∀ a, o a → m a ≠ none) → ∀ c, Runs ⟨m, o, code, []⟩ c → Inv total c := fun m o ho c hr =>
    inv_reach ⟨fun _ => none, total, by simp, ho, h _, rfl⟩ hr
  have ht : ∀ m o, (∀ a, o a → m a ≠ none) → ∀ c, Runs ⟨m, o, code, []⟩ c → ∀ a, Touches c.code a → ¬ c.owned a := by
    intro m o ho c hr a ha
    obtain ⟨K, es, hK, _, hS, _⟩ := hi m o ho c hr
    obtain ⟨m', o', code', log⟩ := c
    cases code' with
    | done => exact ha.elim
    | make _ _ => exact ha.elim
    | read x k => obtain ⟨b, hb, _⟩ := hS; cases ha; exact (hK _ _ hb).2
    | write x off b k => obtain ⟨b, hb, _⟩ := hS; cases ha; exact (hK _ _ hb).2
    | give ip mk v k =>
      obtain ⟨bi, bm, _, h1, h2, _⟩ := hS
      rcases ha with rfl | rfl
      · exact (hK _ _ h1).2
      · exact (hK _ _ h2).2
  refine ⟨?_, ?_, ?_, ht, ?_, ?_, finite_code code⟩
  · intro m o ho c hr
    obtain ⟨K, es, _, _, _, hT⟩ := hi m o ho c hr
    exact ⟨es, hT⟩
  · intro m o ho c hr hd
    obtain ⟨K, es, _, _, hS, hT⟩ := hi m o ho c hr
    rw [hd] at hS
    cases hS
    simpa using hT
  · intro m o ho c hr ip mk v k hc
    obtain ⟨K, es, hK, _, hS, _⟩ := hi m o ho c hr
    rw [hc] at hS
    obtain ⟨bi, bm, _, h1, h2, h3, _⟩ := hS
    exact ⟨(hK _ _ h1).2, (hK _ _ h2).2, h3⟩
  · intro m o ho c d hr hs a ha
    have ht := ht m o ho c hr
    obtain ⟨K, es, hK, hO, hS, _⟩ := hi m o ho c hr
    cases hs with
    | @make m o ct k log x hx =>
      have : a ≠ x := by rintro rfl; exact hO _ ha hx
      exact ⟨ha, by simp [Mem.set, this]⟩
    | read hx => exact ⟨ha, rfl⟩
    | @write m o x off ct k log b hx hl =>
      have : a ≠ x := by rintro rfl; exact ht _ rfl ha
      exact ⟨ha, by simp [Mem.set, this]⟩
    | give _ _ => exact ⟨Or.inl ha, rfl⟩
  · intro m o ho c hr hf hd
    exact inv_step (hi m o ho c hr) hf hd
end

variable {V : Type}

/-- C76 for `Enumerate` of iptree: what is received is the list of C39, in memory the receiver has to itself. -/
theorem C76_iptree_enumerate (extra : Nat) (t : Option (IP.Tree V)) : HandsOver (enumCode extra t) (IP.Enumerate t) :=
  handsOver (safe_enum extra t)

/-- C76 for `Enumerate` of uintX/iptreeX. -/
theorem C76_uint_enumerate (extra : Nat) (t : Option (UIP.Tree V)) : HandsOver (uenumCode extra t) (UIP.Enumerate t) :=
  handsOver (safe_uenum extra t)

/-- C76 for `UpdateDescendants`: the callback gets the keys and values it gets in C43, whatever it answers, in memory it has to itself. -/
theorem C76_iptree_update (extra : Nat) (ans : List (IPNet × V) → IPNet → V → V × Bool) (t : Option (IP.Tree V)) (n : Option IPNet) :
    (updCode extra t n = none ↔ UpdateDescendants (noting ans) t n [] = none) ∧
    ∀ c t' es, updCode extra t n = some c → UpdateDescendants (noting ans) t n [] = some (t', es) → HandsOver c es :=
  ⟨(safe_upd extra ans t n).1, fun c t' es h1 h2 => handsOver ((safe_upd extra ans t n).2 c t' es h1 h2)⟩

/-! ## A run with a client that spoils everything it receives at once -/

section
variable {A : Type}

/-- Run the code; after each pair the client applies `spoil` to both arrays. -/
def exec (spoil : Bytes → Bytes) : Nat → List Bytes → Code A → List (IPNet × A) → Option (List (IPNet × A))
  | 0, _, _, _ => none
  | _ + 1, _, .done, log => some log
  | f + 1, m, .make c k, log => exec spoil f (m ++ [c]) (k m.length) log
  | f + 1, m, .read a k, log => match m[a]? with
    | some b => exec spoil f m (k b) log
    | none => none
  | f + 1, m, .write a off c k, log => match m[a]? with
    | some b => if off + c.length ≤ b.length then exec spoil f (m.set a (splice b off c)) k log else none
    | none => none
  | f + 1, m, .give ip mk v k, log => match m[ip.arr]?, m[mk.arr]? with
    | some bi, some bm => exec spoil f ((m.set ip.arr (spoil bi)).set mk.arr (spoil bm)) k (log ++ [(⟨ip.of bi, mk.of bm⟩, v)])
    | _, _ => none

theorem Runs.trans {a b c : Conf A} (h1 : Runs a b) (h2 : Runs b c) : Runs a c := by
  induction h2 with
  | refl => exact h1
  | code _ hs ih => exact .code ih hs
  | client _ hs ih => exact .client ih hs

/-- `exec` is one of the runs the theorems are about. -/
theorem exec_runs (spoil : Bytes → Bytes) (f : Nat) : ∀ (m : List Bytes) (M : Mem) (o : Nat → Prop) (code : Code A) log l, (∀ a, M a = m[a]?) →
    exec spoil f m code log = some l → ∃ c, Runs ⟨M, o, code, log⟩ c ∧ c.code = .done ∧ c.log = l := by
  induction f with
  | zero => intro m M o code log l _ h; simp [exec] at h
  | succ f ih =>
    intro m M o code log l hM h
    cases code with
    | done => simp only [exec, Option.some.injEq] at h; exact ⟨_, .refl, rfl, h⟩
    | make c k =>
      simp only [exec] at h
      obtain ⟨d, hd, h1, h2⟩ := ih _ (M.set m.length c) o _ _ _ (by
        intro a
        simp only [Mem.set, hM]
        split
        · rename_i e; subst e; simp
        · rename_i e
          rcases Nat.lt_or_ge a m.length with h | h
          · rw [List.getElem?_append_left h]
          · rw [List.getElem?_eq_none h, List.getElem?_eq_none (by simp; omega)]) h
      exact ⟨d, Runs.trans (.code .refl (.make m.length (by simp [hM]))) hd, h1, h2⟩
    | read a k =>
      simp only [exec] at h
      split at h
      · rename_i b hb
        obtain ⟨d, hd, h1, h2⟩ := ih _ M o _ _ _ hM h
        exact ⟨d, Runs.trans (.code .refl (.read (by rw [hM, hb]))) hd, h1, h2⟩
      · cases h
    | write a off c k =>
      simp only [exec] at h
      split at h
      · rename_i b hb
        split at h
        · rename_i hl
          obtain ⟨d, hd, h1, h2⟩ := ih _ (M.set a (splice b off c)) o _ _ _ (by
            intro x
            have : a < m.length := (List.getElem?_eq_some_iff.1 hb).1
            simp only [Mem.set, hM, List.getElem?_set, this, if_true, eq_comm (a := x)]) h
          exact ⟨d, Runs.trans (.code .refl (.write (by rw [hM, hb]) hl)) hd, h1, h2⟩
        · cases h
      · cases h
    | give ip mk v k =>
      simp only [exec] at h
      split at h
      · rename_i bi bm hi hm
        have li : ip.arr < m.length := (List.getElem?_eq_some_iff.1 hi).1
        have lm : mk.arr < m.length := (List.getElem?_eq_some_iff.1 hm).1
        obtain ⟨d, hd, h1, h2⟩ := ih _ ((M.set ip.arr (spoil bi)).set mk.arr (spoil bm)) (fun x => o x ∨ x = ip.arr ∨ x = mk.arr) _ _ _ (by
          intro x
          simp only [Mem.set, hM, List.getElem?_set, List.length_set, li, lm, if_true, eq_comm (a := x)]) h
        refine ⟨d, Runs.trans (.code .refl (.give (by rw [hM, hi]) (by rw [hM, hm]))) (Runs.trans (.client .refl (.any ?_ ?_ ?_)) hd), h1, h2⟩
        · intro a ha _
          have e1 : a ≠ ip.arr := fun e => ha (Or.inr (Or.inl e))
          have e2 : a ≠ mk.arr := fun e => ha (Or.inr (Or.inr e))
          simp [Mem.set, e1, e2]
        · intro a _ hn
          simp only [Mem.set]
          split
          · simp
          · split
            · simp
            · exact hn
        · intro a
          refine ⟨Or.inl, ?_⟩
          rintro (h | ⟨h, h'⟩)
          · exact h
          · simp only [Mem.set] at h'
            split at h'
            · rename_i e; exact Or.inr (Or.inr e)
            · split at h'
              · rename_i e; exact Or.inr (Or.inl e)
              · exact absurd h h'
      · cases h
end

/-- The client overwrites both arrays of each key before the walk goes on, and still gets the keys of the listing; `append` may leave spare room. -/
example : (IP.run none sampleIP).map (fun t => (exec (fun b => b.map fun _ => 0xee) 200 [[1, 2, 3]] (enumCode 0 t) [],
    exec (fun b => b.map fun _ => 0xee) 200 [] (enumCode 16 t) [])) =
    (IP.run none sampleIP).map (fun t => (some (IP.Enumerate t), some (IP.Enumerate t))) := by decide +kernel

example : ((IP.run none sampleIP).map (fun t => (IP.Enumerate t).length)) = some 5 := by decide +kernel

example : let t := UIP.run none sampleU
    exec (fun b => b.map fun _ => 0xee) 200 [] (uenumCode 0 t) [] = some (UIP.Enumerate t) ∧ (UIP.Enumerate t).length = 6 := by decide +kernel

/-- The callback of `UpdateDescendants` overwrites its keys. -/
example : (IP.run none sampleIP).bind (fun t => (updCode 0 t (some (net6 0x20 0x01 0 0 16))).map fun c => exec (fun b => b.map fun _ => 0xee) 200 [] c []) =
    some (some [(net6 0x20 0x01 0 0 64, 5), (net6 0x20 0x01 0 1 128, 6)]) := by decide +kernel

/-- The claim tells right from wrong: were `.Mask(mask)` left out, that is, were the result of `append` sent itself, the keys would share
`MSIP`, and the spoiled first key would show in the second. -/
example : exec (fun b => b.map fun _ => 0xee) 200 [] (msip 0 0x2001000000000000#64 fun ms =>
    fresh (unpack64 1#64) fun ls => cidr 128 128 fun m => Own.append 0 (ms.upto 8) ls fun x => .give x m 1 <|
    fresh (unpack64 2#64) fun ls => cidr 128 128 fun m => Own.append 0 (ms.upto 8) ls fun x => .give x m 2 .done) [] =
    some [(net6 0x20 0x01 0 1 128, 1),
      (⟨[0xee, 0xee, 0xee, 0xee, 0xee, 0xee, 0xee, 0xee, 0, 0, 0, 0, 0, 0, 0, 2], cidrMask 128 128⟩, 2)] := by decide +kernel

end Verif.Props
