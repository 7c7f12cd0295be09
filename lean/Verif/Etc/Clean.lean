import Verif.Etc.Path
import Verif.Spec.Path

/-! # `Clean` computes the place a path leads to -/

namespace Verif.Etc
open Verif.Path

/-- An ordinary name: not empty, no slash, not "." or "..". -/
structure Nm (c : Bytes) : Prop where
  ne : c ≠ []
  nosl : (47 : UInt8) ∉ c
  ne1 : c ≠ dot1
  ne2 : c ≠ dot2

/-- `k` times up, then down along `cs`. -/
def ups (k : Nat) (cs : List Bytes) : List Bytes := List.replicate k dot2 ++ cs

theorem joined_snoc (l : List Bytes) (c : Bytes) : joined (l ++ [c]) = if l = [] then c else joined l ++ 47 :: c := by
  induction l with
  | nil => simp [joined]
  | cons a l ih =>
    cases l with
    | nil => simp [joined]
    | cons b l => simp only [List.cons_append, joined] at ih ⊢; rw [ih]; simp

/-- A piece before the end or a slash. -/
theorem pieces_name {c : Bytes} (hc : (47 : UInt8) ∉ c) (t : Bytes) :
    pieces (c ++ 47 :: t) = c :: pieces t ∧ pieces c = [c] := by
  induction c with
  | nil => simp [pieces]
  | cons x c ih =>
    simp only [List.mem_cons, not_or] at hc
    have hx : x ≠ 47 := fun h => hc.1 h.symm
    obtain ⟨h1, h2⟩ := ih hc.2
    simp [pieces, hx, h1, h2]

theorem fold_name (rooted : Prop) [Decidable rooted] {c t : Bytes} (hc : (47 : UInt8) ∉ c) (ht : t = [] ∨ t.head? = some 47)
    (st : List Bytes) :
    (pieces (c ++ t)).foldl (walk rooted) st = (pieces t).foldl (walk rooted) (walk rooted st c) := by
  have hw : ∀ s, walk rooted s [] = s := fun s => by simp [walk]
  rcases ht with rfl | ht
  · simp [(pieces_name hc []).2, pieces, hw]
  · obtain ⟨t, rfl⟩ : ∃ t', t = 47 :: t' := by cases t <;> simp_all
    simp [(pieces_name hc t).1, pieces, hw]

theorem walk_nm (rooted : Prop) [Decidable rooted] {c : Bytes} (h : Nm c) (st : List Bytes) : walk rooted st c = st ++ [c] := by
  simp [walk, h.ne, h.ne1, h.ne2]

theorem walk_up_cs (rooted : Prop) [Decidable rooted] {c : Bytes} (h : Nm c) (k : Nat) (cs : List Bytes) :
    walk rooted (ups k (cs ++ [c])) dot2 = ups k cs := by
  have e : ups k (cs ++ [c]) = ups k cs ++ [c] := by simp [ups]
  rw [e]
  simp [walk, dot1, dot2]
  simpa [dot2] using h.ne2

theorem walk_up_nil (rooted : Prop) [Decidable rooted] (k : Nat) (hk : rooted → k = 0) :
    walk rooted (ups k []) dot2 = if rooted then [] else ups (k + 1) [] := by
  cases k with
  | zero => simp [walk, ups, dot1, dot2]
  | succ k =>
    have hr : ¬ rooted := fun h => by simpa using hk h
    have e : ups (k + 1) [] = ups k [] ++ [dot2] := by simp [ups, List.replicate_succ']
    have e2 : ups (k + 1 + 1) [] = ups (k + 1) [] ++ [dot2] := by simp [ups, List.replicate_succ']
    rw [e2]; rw [e]
    simp [walk, hr, dot1, dot2]

/-- What `Clean` has written for a place. -/
def rend (rooted : Bool) (k : Nat) (cs : List Bytes) : Bytes := (if rooted then [47] else []) ++ joined (ups k cs)

/-- The part `Clean` does not backtrack over. -/
def ddOf (rooted : Bool) (k : Nat) : Nat := (rend rooted k []).length

theorem back_stop {d : Nat} {c b : Bytes} (hc : (47 : UInt8) ∉ c) (hb : b.length = d) (hne : c ≠ []) : back d (c ++ b) = b := by
  induction c with
  | nil => simp at hne
  | cons x c ih =>
    simp only [List.mem_cons, not_or] at hc
    cases c with
    | nil => simp [back, hb]
    | cons y c => 
      have hx : x ≠ 47 := fun h => hc.1 h.symm
      have := ih hc.2 (by simp)
      simp only [List.cons_append, back] at this ⊢
      rw [if_pos (by simp [hx]; omega)]
      exact this

theorem back_sep {d : Nat} {c b : Bytes} (hc : (47 : UInt8) ∉ c) (hb : d ≤ b.length) : back d (c ++ 47 :: b) = b := by
  induction c with
  | nil => simp [back]
  | cons x c ih =>
    simp only [List.mem_cons, not_or] at hc
    have hx : x ≠ 47 := fun h => hc.1 h.symm
    simp only [List.cons_append, back]
    rw [if_pos (by simp [hx]; omega)]
    exact ih hc.2

theorem joined_eq_nil {l : List Bytes} (h : ∀ c ∈ l, c ≠ []) : joined l = [] ↔ l = [] := by
  cases l with
  | nil => simp [joined]
  | cons a l =>
    cases l with
    | nil => simpa [joined] using h a (by simp)
    | cons b l => simp [joined]

theorem ups_ne {k : Nat} {cs : List Bytes} (h : ∀ c ∈ cs, Nm c) : ∀ c ∈ ups k cs, c ≠ [] := by
  intro c hc
  simp only [ups, List.mem_append, List.mem_replicate] at hc
  rcases hc with ⟨_, rfl⟩ | hc
  · simp [dot2]
  · exact (h c hc).ne

theorem joined_append_len (l m : List Bytes) : (joined l).length ≤ (joined (l ++ m)).length := by
  induction l with
  | nil => simp [joined]
  | cons a l ih =>
    cases l with
    | nil => cases m <;> simp [joined]
    | cons b l => simp only [List.cons_append, joined, List.length_append, List.length_cons] at ih ⊢; omega

theorem dd_le (rooted : Bool) (k : Nat) (cs : List Bytes) : ddOf rooted k ≤ (rend rooted k cs).length := by
  have := joined_append_len (ups k []) cs
  simp only [ups, List.append_nil] at this
  simp [ddOf, rend, ups]; omega

theorem rend_snoc (rooted : Bool) (k : Nat) (cs : List Bytes) (c : Bytes) :
    rend rooted k (cs ++ [c]) = if ups k cs = [] then (if rooted then [47] else []) ++ c else rend rooted k cs ++ 47 :: c := by
  have e : ups k (cs ++ [c]) = ups k cs ++ [c] := by simp [ups]
  simp only [rend, e, joined_snoc]; by_cases h : ups k cs = [] <;> simp [h]

theorem back_rend {rooted : Bool} {k : Nat} {cs : List Bytes} {c : Bytes} (hc : Nm c) (hk : rooted = true → k = 0) :
    back (ddOf rooted k) (rend rooted k (cs ++ [c])).reverse = (rend rooted k cs).reverse := by
  have hr : (47 : UInt8) ∉ c.reverse := by simpa using hc.nosl
  rw [rend_snoc]
  by_cases h : ups k cs = []
  · rw [if_pos h]
    have hk : k = 0 ∧ cs = [] := by
      simp only [ups, List.append_eq_nil_iff, List.replicate_eq_nil_iff] at h; exact h
    obtain ⟨rfl, rfl⟩ := hk
    rw [List.reverse_append]
    rw [back_stop hr (by cases rooted <;> simp [ddOf, rend, ups, joined]) (by simpa using hc.ne)]
    simp [rend, ups, joined]
  · rw [if_neg h, List.reverse_append, List.reverse_cons, List.append_assoc]
    exact back_sep hr (by simpa using dd_le rooted k cs)

theorem dd_lt {rooted : Bool} {k : Nat} {cs : List Bytes} {c : Bytes} (hc : Nm c) :
    ddOf rooted k < (rend rooted k (cs ++ [c])).length := by
  have hl : 0 < c.length := List.length_pos_iff.2 hc.ne
  rw [rend_snoc]
  split
  · rename_i h
    have hk : k = 0 ∧ cs = [] := by
      simp only [ups, List.append_eq_nil_iff, List.replicate_eq_nil_iff] at h; exact h
    obtain ⟨rfl, rfl⟩ := hk
    cases rooted <;> simp [ddOf, rend, ups, joined] <;> omega
  · have := dd_le rooted k cs
    simp; omega

theorem takeWhile_nosl (s : Bytes) : (47 : UInt8) ∉ s.takeWhile (· ≠ 47) := by
  induction s with
  | nil => simp
  | cons x s ih => by_cases h : x = 47 <;> simp_all [eq_comm]

theorem dropWhile_head (s : Bytes) : s.dropWhile (· ≠ 47) = [] ∨ (s.dropWhile (· ≠ 47)).head? = some 47 := by
  induction s with
  | nil => simp
  | cons x s ih => by_cases h : x = 47 <;> simp_all

/-- The loop of `Clean` follows the pieces of the path. -/
theorem cleanLoop_spec {rooted : Bool} (rest : Bytes) (k : Nat) (cs : List Bytes) (hcs : ∀ c ∈ cs, Nm c) (hk : rooted = true → k = 0) :
    ∃ k' cs', (∀ c ∈ cs', Nm c) ∧ (rooted = true → k' = 0) ∧
      (pieces rest).foldl (walk (rooted = true)) (ups k cs) = ups k' cs' ∧
      cleanLoop rooted (rend rooted k cs).reverse (ddOf rooted k) rest = (rend rooted k' cs').reverse := by
  induction h : rest.length using Nat.strongRecOn generalizing rest k cs with
  | ind n ih =>
  subst h
  have fold1 := @fold_name (rooted = true) _
  cases rest with
  | nil => exact ⟨k, cs, hcs, hk, by simp [pieces, walk], by rw [cleanLoop]⟩
  | cons c s =>
    rw [cleanLoop]
    by_cases h1 : c = 47
    · subst h1
      obtain ⟨k', cs', a, b, e1, e2⟩ := ih s.length (by simp) s k cs hcs hk rfl
      exact ⟨k', cs', a, b, by simpa [pieces, walk] using e1, by simpa using e2⟩
    rw [if_neg h1]
    by_cases h2 : (c = 46 && (s.isEmpty || s.head? == some 47)) = true
    · rw [if_pos h2]
      simp only [Bool.and_eq_true, decide_eq_true_eq, Bool.or_eq_true, List.isEmpty_iff, beq_iff_eq] at h2
      obtain ⟨rfl, h2⟩ := h2
      obtain ⟨k', cs', a, b, e1, e2⟩ := ih s.length (by simp) s k cs hcs hk rfl
      refine ⟨k', cs', a, b, ?_, e2⟩
      rw [show (46 : UInt8) :: s = dot1 ++ s from rfl, fold1 (by simp [dot1]) h2]
      simpa [walk] using e1
    rw [if_neg h2]
    by_cases h3 : (c = 46 && s.head? == some 46 && (s.tail.isEmpty || s.tail.head? == some 47)) = true
    · rw [if_pos h3]
      simp only [Bool.and_eq_true, decide_eq_true_eq, Bool.or_eq_true, List.isEmpty_iff, beq_iff_eq] at h3
      obtain ⟨⟨rfl, h3⟩, h4⟩ := h3
      obtain ⟨s, rfl⟩ : ∃ s', s = 46 :: s' := by cases s <;> simp_all
      simp only [List.tail_cons] at h4 ⊢
      rw [show (46 : UInt8) :: 46 :: s = dot2 ++ s from rfl]
      rw [fold1 (c := dot2) (by simp [dot2]) h4]
      rcases List.eq_nil_or_concat cs with rfl | ⟨cs0, c0, rfl⟩
      · rw [if_neg (by simp [ddOf]), walk_up_nil (rooted = true) k hk]
        cases rooted with
        | true =>
          obtain rfl := hk rfl
          simpa [ups] using ih s.length (by simp; omega) s 0 [] (by simp) (by simp) rfl
        | false =>
          simp only [Bool.not_false, if_true]
          have := ih s.length (by simp; omega) s (k + 1) [] (by simp) (by simp) rfl
          have e : (46 :: 46 :: (if (rend false k []).reverse.length > 0 then 47 :: (rend false k []).reverse else (rend false k []).reverse))
              = (rend false (k + 1) []).reverse := by
            have e2 : ups (k + 1) [] = ups k [] ++ [dot2] := by simp [ups, List.replicate_succ']
            have hn := joined_eq_nil (ups_ne (k := k) (cs := []) (by simp))
            simp only [rend, e2, joined_snoc]
            by_cases hu : ups k [] = []
            · simp [hu, joined, dot2]
            · have : joined (ups k []) ≠ [] := fun h => hu (hn.1 h)
              simp [hu, List.length_pos_iff.2 this, dot2]
          rw [e]
          have e3 : (rend false (k + 1) []).reverse.length = ddOf false (k + 1) := by simp [ddOf]
          rw [e3]; simpa using this
      · have hc0 : Nm c0 := hcs c0 (by simp)
        simp only [List.concat_eq_append] at *
        rw [if_pos (by simpa using dd_lt hc0), back_rend hc0 hk, walk_up_cs _ hc0]
        exact ih s.length (by simp; omega) s k cs0 (fun c hc => hcs c (by simp [hc])) hk rfl
    · rw [if_neg h3]
      have hsplit : (c :: s) = (c :: s).takeWhile (· ≠ 47) ++ (c :: s).dropWhile (· ≠ 47) := List.takeWhile_append_dropWhile.symm
      have hcne : (c :: s).takeWhile (· ≠ 47) ≠ [] := by simp [h1]
      have hlt : ((c :: s).dropWhile (· ≠ 47)).length < (c :: s).length := by
        have := congrArg List.length hsplit
        have h5 := List.length_pos_iff.2 hcne
        rw [List.length_append] at this; omega
      have hnosl := takeWhile_nosl (c :: s)
      have hhead := dropWhile_head (c :: s)
      generalize hN : (c :: s).takeWhile (· ≠ 47) = N at *
      generalize hR : (c :: s).dropWhile (· ≠ 47) = R at *
      have hnm : Nm N := by
        refine ⟨hcne, hnosl, ?_, ?_⟩
        · rintro rfl
          apply h2
          simp only [dot1, List.singleton_append, List.cons.injEq] at hsplit
          obtain ⟨rfl, rfl⟩ := hsplit
          rcases hhead with rfl | hh
          · simp
          · simp [hh]
        · rintro rfl
          apply h3
          simp only [dot2, List.cons_append, List.nil_append, List.cons.injEq] at hsplit
          obtain ⟨rfl, rfl⟩ := hsplit
          rcases hhead with rfl | hh
          · simp
          · simp [hh]
      obtain ⟨k', cs', a, b, e1, e2⟩ := ih R.length hlt R k (cs ++ [N])
        (by intro x hx; rcases List.mem_append.1 hx with hx | hx
            · exact hcs x hx
            · simp at hx; rw [hx]; exact hnm) hk rfl
      refine ⟨k', cs', a, b, ?_, ?_⟩
      · rw [hsplit, fold1 hnosl hhead, walk_nm _ hnm]
        simpa [ups] using e1
      · rw [← e2, rend_snoc]
        have hn := joined_eq_nil (ups_ne (k := k) hcs)
        have : (if (rooted && (rend rooted k cs).reverse.length ≠ 1) || (!rooted && (rend rooted k cs).reverse.length ≠ 0) then 47 :: (rend rooted k cs).reverse else (rend rooted k cs).reverse)
            = (if ups k cs = [] then (if rooted then [47] else []) else rend rooted k cs ++ [47]).reverse := by
          by_cases hu : ups k cs = []
          · cases rooted <;> simp [rend, hu, joined]
          · have : joined (ups k cs) ≠ [] := fun h => hu (hn.1 h)
            cases rooted <;> simp [rend, hu, this]
        rw [this]
        by_cases hu : ups k cs = [] <;> simp [hu]

/-- The names of a place: ups first (none for rooted paths), then ordinary names. -/
def Normal (rooted : Prop) (names : List Bytes) : Prop := ∃ k cs, (∀ c ∈ cs, Nm c) ∧ (rooted → k = 0) ∧ names = ups k cs

theorem place_clean (p : Bytes) : Normal (Rooted p) (place p) ∧ Clean p = text (Rooted p) (place p) := by
  cases p with
  | nil => exact ⟨⟨0, [], by simp, by simp, by simp [place, pieces, walk, ups]⟩, by simp [Clean, text, Rooted, place, pieces, walk, dot1]⟩
  | cons c s =>
    by_cases h : c = 47
    · subst h
      have hr : Rooted (47 :: s) := rfl
      obtain ⟨k', cs', a, b, e1, e2⟩ := cleanLoop_spec (rooted := true) s 0 [] (by simp) (by simp)
      have e1 : place (47 :: s) = ups k' cs' := by
        rw [← e1]
        have : walk (Rooted (47 :: s)) = walk (true = true) := by
          funext st c; simp only [walk, hr]
        simp only [place, this]
        simp [pieces, walk, ups]
      refine ⟨⟨k', cs', a, fun _ => b rfl, e1⟩, ?_⟩
      have e2 : cleanLoop true [47] 1 s = (rend true k' cs').reverse := by simpa [rend, ups, joined, ddOf] using e2
      simp only [Clean, text, if_pos hr, if_true, e2, e1]
      simp [rend]
    · have hr : ¬ Rooted (c :: s) := by simpa [Rooted] using h
      obtain ⟨k', cs', a, b, e1, e2⟩ := cleanLoop_spec (rooted := false) (c :: s) 0 [] (by simp) (by simp)
      have e1 : place (c :: s) = ups k' cs' := by
        rw [← e1]
        have : walk (Rooted (c :: s)) = walk (false = true) := by
          funext st c; simp only [walk, hr]; simp
        simp only [place, this]
        simp [ups]
      refine ⟨⟨k', cs', a, fun hh => absurd hh hr, e1⟩, ?_⟩
      have e2 : cleanLoop false [] 0 (c :: s) = (rend false k' cs').reverse := by simpa [rend, ups, joined, ddOf] using e2
      have hn := joined_eq_nil (ups_ne (k := k') a)
      simp only [Clean, text, if_neg hr, if_neg h, e2, e1]
      by_cases hu : ups k' cs' = []
      · simp [hu, rend, joined, dot1]
      · have : joined (ups k' cs') ≠ [] := fun h => hu (hn.1 h)
        simp [hu, rend, this]

end Verif.Etc
