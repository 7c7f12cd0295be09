import Verif.Domain.Labels
import Verif.Props.Domain

/-! # GetLabel at any offset (C109) -/

namespace Verif.Props
open Verif Verif.Domain

/-- Where the label number `k` begins if every label is preceded by one byte. -/
def startOf (ls : List Bytes) (k : Nat) : Nat := ((ls.take k).map fun l => l.length + 1).sum

/-- The labels one after the other, each preceded by its length. -/
def wire (ls : List Bytes) : Bytes := ls.flatMap fun l => UInt8.ofNat l.length :: l

theorem wire_eq (ls : List Bytes) : wire ls = encode ls := by
  induction ls with
  | nil => rfl
  | cons l ls ih => rw [encode_cons, ← ih]; simp [wire]

theorem encode_take_length (ls : List Bytes) (k : Nat) : (encode (ls.take k)).length = startOf ls k := by
  unfold startOf
  generalize ls.take k = xs
  induction xs with
  | nil => rfl
  | cons l xs ih => rw [encode_cons]; simp [ih]; omega

theorem getLabel_out {n : Name} {off : Int} (h : off < 0 ∨ n.c.length ≤ off) (h0 : off ≠ 0 ∨ n.c ≠ []) : n.GetLabel off = ([], -1) := by
  unfold Name.GetLabel
  rw [if_neg (by rcases h0 with h0 | h0 <;> simp [h0]), if_pos (by simpa using h)]

theorem getLabel_in {n : Name} {pre rest : Bytes} {b : UInt8} (h : n.c = pre ++ b :: rest) :
    n.GetLabel pre.length = if b.toNat = 0 ∨ 63 < b.toNat then ([], -1)
      else (rest.take b.toNat, if rest.length ≤ b.toNat then 0 else (pre.length + 1 + b.toNat : Int)) := by
  unfold Name.GetLabel
  have hd : n.c.getD pre.length 0 = b := by rw [h]; exact getD_append_len _ _ _ _
  have hl : n.c.length = pre.length + 1 + rest.length := by rw [h]; simp; omega
  have hdr : n.c.drop (pre.length + 1) = rest := by rw [h]; simp [List.drop_append]
  simp only [Int.toNat_natCast, hd, hl]
  rw [if_neg (by simp), if_neg (by simp; omega)]
  by_cases hb : b.toNat = 0 ∨ 63 < b.toNat
  · rw [if_pos hb, if_pos (by simp only [Bool.or_eq_true, decide_eq_true_eq]; omega)]
  · rw [if_neg hb, if_neg (by simp only [Bool.or_eq_true, decide_eq_true_eq]; omega)]
    by_cases hr : rest.length ≤ b.toNat
    · rw [if_pos (by omega), if_pos hr, hdr, List.take_of_length_le hr]
    · rw [if_neg (by omega), if_neg hr]
      simp only [slice, Prod.mk.injEq]
      refine ⟨?_, by omega⟩
      first
        | rw [hdr]; congr 1; omega
        | (rw [List.drop_take, hdr]; congr 1; omega)

/-- C109: for every name made from text and every offset, GetLabel gives label and next offset where a label begins (offset 0 after the last
label), -1 outside of the name, and inside of a label the bytes after the one at the offset, taken as a length, or -1 if that cannot
be the length of a label.  A next offset other than 0 and -1 is larger than the offset and lies in the name. -/
theorem C109_getLabel {s : Bytes} {n : Name} (h : MakeNameFromString s = .ok n) : ∃ ls, n.labels = some ls ∧
    (∀ k l, ls[k]? = some l → n.GetLabel (startOf ls k) = (l, if k + 1 = ls.length then 0 else (startOf ls (k + 1) : Int))) ∧
    (∀ off : Int, off < 0 ∨ startOf ls ls.length ≤ off → off ≠ 0 ∨ ls ≠ [] → n.GetLabel off = ([], -1)) ∧
    (∀ pre b rest, wire ls = pre ++ b :: rest →
      (b.toNat = 0 ∨ 63 < b.toNat → n.GetLabel pre.length = ([], -1)) ∧
      (¬ (b.toNat = 0 ∨ 63 < b.toNat) → n.GetLabel pre.length = (rest.take b.toNat, if rest.length ≤ b.toNat then 0 else (pre.length + 1 + b.toNat : Int)))) ∧
    ∀ off : Int, (n.GetLabel off).2 = 0 ∨ (n.GetLabel off).2 = -1 ∨ (off < (n.GetLabel off).2 ∧ (n.GetLabel off).2 < startOf ls ls.length) := by
  obtain ⟨ls, h1, h2, h3⟩ : ∃ ls, n.labels = some ls ∧ n.c = encode ls ∧ Short ls := by
    rcases make_sound h with ⟨_, rfl⟩ | ⟨ls, tr, hv, hlim, _, rfl⟩
    · exact ⟨[], rfl, rfl, by intro l hl; cases hl⟩
    · exact ⟨_, labels_encode _ (short_of_limits hlim) _, rfl, short_of_limits hlim⟩
  have hT : n.c.length = startOf ls ls.length := by rw [h2, ← encode_take_length, List.take_length]
  have hout : ∀ off : Int, off < 0 ∨ startOf ls ls.length ≤ off → off ≠ 0 ∨ ls ≠ [] → n.GetLabel off = ([], -1) := by
    intro off ho h0
    refine getLabel_out (by rw [hT]; exact ho) (h0.imp id fun hn he => ?_)
    have := encode_length_pos hn
    rw [← h2, he] at this
    simp at this
  refine ⟨ls, h1, ?_, hout, ?_, ?_⟩
  · intro k l hk
    obtain ⟨hkl, rfl⟩ := List.getElem?_eq_some_iff.1 hk
    have e : ls = ls.take k ++ ls[k] :: ls.drop (k + 1) := by simp
    have := getLabel_encode (ls.take k) ls[k] (ls.drop (k + 1)) (h3 _ (List.getElem_mem hkl)) n.h
    rw [← e, ← h2, encode_take_length] at this
    have e2 : ls.take k ++ [ls[k]] = ls.take (k + 1) := by simp
    rw [e2, encode_take_length] at this
    refine this.trans ?_
    have : ls.drop (k + 1) = [] ↔ k + 1 = ls.length := by rw [List.drop_eq_nil_iff]; omega
    simp only [this]
  · intro pre b rest hw
    have := getLabel_in (n := n) (h2.trans ((wire_eq ls).symm.trans hw))
    exact ⟨fun hb => by rw [this, if_pos hb], fun hb => by rw [this, if_neg hb]⟩
  · intro off
    by_cases ho : off < 0 ∨ (startOf ls ls.length : Int) ≤ off
    · by_cases h0 : off ≠ 0 ∨ ls ≠ []
      · rw [hout off ho h0]; exact .inr (.inl rfl)
      · have h00 : off = 0 := by by_cases hz : off = 0 <;> simp_all
        have hl : ls = [] := by by_cases hz : ls = [] <;> simp_all
        subst h00 hl
        left
        simp [Name.GetLabel, h2, encode]
    · obtain ⟨m, rfl⟩ : ∃ m : Nat, off = m := ⟨off.toNat, by omega⟩
      have hm : m < n.c.length := by omega
      have e : n.c = n.c.take m ++ n.c[m] :: n.c.drop (m + 1) := by simp
      have := getLabel_in e
      rw [show (n.c.take m).length = m by simp; omega] at this
      rw [this]
      split
      · exact .inr (.inl rfl)
      · simp only [List.length_drop]
        split
        · exact .inl rfl
        · right; right; constructor <;> omega

/-- "www.example.com": the labels begin at 0, 4 and 12; at 1 stands the letter C (67), no length of a label. -/
example : (match MakeNameFromString "www.example.com".toUTF8.toList with
    | .ok n => [n.GetLabel 0, n.GetLabel 4, n.GetLabel 12, n.GetLabel 1, n.GetLabel (-3), n.GetLabel 16]
    | _ => []) = [([67, 79, 77], 4), ([69, 88, 65, 77, 80, 76, 69], 12), ([87, 87, 87], 0), ([], -1), ([], -1), ([], -1)] := by decide +kernel

/-- "\\002bc-": the label's own bytes are taken for a shorter label if asked in the middle. -/
example : (match MakeNameFromString [92, 48, 48, 50, 98, 99, 45] with
    | .ok n => [n.GetLabel 0, n.GetLabel 1, n.GetLabel 4]
    | _ => []) = [([2, 66, 67, 45], 0), ([66, 67], 4), ([], 0)] := by decide +kernel

end Verif.Props
