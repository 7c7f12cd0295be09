import Verif.DL.Trace
import Verif.Props.Dltree
import Verif.Props.Parsing

/-!
# Property C75: dltree Enumerate with raw labels of any length

`RawInsert` takes any bytes as a label.  `Enumerate` prints the labels; `MakeHumanReadableLabel` panics for some labels longer than 63
bytes (C25), and a panic in the goroutine of `Enumerate` ends the program.
-/

namespace Verif.Props
open Verif Verif.Domain Verif.DomainText Verif.DL
variable {V : Type} [Inhabited V]

/-- A label that cannot be printed: a capital letter stands where the text before it takes 252 characters. -/
def Unprintable (l : Bytes) : Prop := ∃ a c b, l = a ++ c :: b ∧ (printedText a).length = 252 ∧ 65 ≤ c ∧ c ≤ 90

/-- C75: after any history the program is ended by Enumerate exactly if a stored raw label cannot be printed; otherwise the loop over
Enumerate ends normally with the pairs of `DL.Enumerate`. -/
theorem C75_crash_iff {t0 : Option (DL.Tree V)} (h0 : t0 = none ∨ t0 = DL.NewTree) (ops : List (DL.Op V × KOp Bytes V))
    (h : ∀ p ∈ ops, OpMeans p.1 p.2) : ∃ t, DL.run t0 (ops.map Prod.fst) = some t ∧
      ((EnumerateTrace t).2 = false ↔ ∃ l v, lastWrite' (ops.map Prod.snd) l = some v ∧ Unprintable l) ∧
      (DL.Enumerate t = if (EnumerateTrace t).2 then some (EnumerateTrace t).1 else none) := by
  obtain ⟨t, h1, h2⟩ := C27_complete h0 ops h
  refine ⟨t, h1, ?_, enumerateN_trace _⟩
  have := sendAll_ok (RawEnumerate t)
  simp only [EnumerateTrace, traceN_eq]
  rw [← Bool.not_eq_true, show RB.enumerate (rootOf t) = RawEnumerate t from rfl, this]
  constructor
  · intro hx
    false_or_by_contra
    rename_i hc
    refine hx fun p hp hn => hc ⟨p.1, p.2, (h2 p.1 p.2).1 hp, (C25_panics_iff _).1 hn⟩
  · rintro ⟨l, v, hl, hu⟩ hx
    exact hx (l, v) ((h2 l v).2 hl) ((C25_panics_iff _).2 hu)

omit [Inhabited V] in
/-- C75: what the loop receives before the end or the crash: the printed forms of the raw labels in order, up to the first that cannot be
printed. -/
theorem C75_received (t : Option (DL.Tree V)) :
    ∃ pre rest, RawEnumerate t = pre ++ rest ∧ (EnumerateTrace t).1.length = pre.length ∧
      (∀ (i : Nat) (p q : Bytes × V), pre[i]? = some p → (EnumerateTrace t).1[i]? = some q → MakeHumanReadableLabel p.1 = some q.1 ∧ p.2 = q.2) ∧
      (((EnumerateTrace t).2 = true ∧ rest = []) ∨ ((EnumerateTrace t).2 = false ∧ ∃ bad tl, rest = bad :: tl ∧ Unprintable bad.1)) := by
  obtain ⟨pre, rest, e1, e2, e3, e4⟩ := sendAll_split (RawEnumerate t)
  simp only [EnumerateTrace, traceN_eq]
  refine ⟨pre, rest, e1, e2, e3, ?_⟩
  rcases e4 with e4 | ⟨e4, bad, tl, e5, e6⟩
  · exact .inl e4
  · exact .inr ⟨e4, bad, tl, e5, (C25_panics_iff _).1 e6⟩

omit [Inhabited V] in
/-- C75: labels the documentation allows never end the program. -/
theorem C75_short_safe (t : Option (DL.Tree V)) (h : ∀ p ∈ RawEnumerate t, p.1.length ≤ 63) : (EnumerateTrace t).2 = true := by
  simp only [EnumerateTrace, traceN_eq]
  refine (sendAll_ok _).2 fun p hp hn => ?_
  obtain ⟨r, hr, _⟩ := C25_no_panic_partial p.1 (.inl (h p hp))
  rw [hr] at hn; cases hn

/-- C75: two raw labels that differ behind the first 252 bytes are listed under the same key. -/
theorem C75_same_key : (DL.run (V := Nat) none [.rawInsert (List.replicate 252 97 ++ [98]) 2, .rawInsert (List.replicate 252 97 ++ [99]) 1]).bind
    DL.Enumerate = some [(List.replicate 252 97, 2), (List.replicate 252 97, 1)] := by decide +kernel

/-- The second label in order cannot be printed: one pair is received, then the program ends. -/
def sampleLong : List (DL.Op Nat) := [.rawInsert (List.replicate 300 97) 3, .rawInsert (List.replicate 253 65) 2, .rawInsert [65] 1]

example : (DL.run none sampleLong).map EnumerateTrace = some ([([97], 1)], false) ∧
    (DL.run none sampleLong).bind DL.Enumerate = none ∧
    (DL.run none sampleLong).map (fun t => (RawEnumerate t).map fun p => (p.1.length, p.2)) = some [(1, 1), (253, 2), (300, 3)] := by decide +kernel

/-- The hypothesis of `C75_crash_iff` for this history, and a label that cannot be printed. -/
example : OpMeans (V := Nat) (.rawInsert (List.replicate 253 65) 2) (.insert (List.replicate 253 65) 2) ∧ Unprintable (List.replicate 253 65) :=
  ⟨.rawInsert, List.replicate 252 65, 65, [], by decide +kernel, by decide +kernel, by decide, by decide⟩

end Verif.Props
