import Verif.DomTree.Closed

/-! # Properties C29-C32, C34-C36 of domaintree (functional part) -/

namespace Verif.Props
open Verif.Domain Verif.DomTree
variable {V : Type}

/-- The labels a text parses to. -/
def parseLabels (s : Bytes) : Option (List Bytes) :=
  match MakeNameFromString s with
  | .ok d => d.labels
  | _ => none

/-- Enumerate lists exactly the entries of `m`, each once, with keys that parse to the stored domains. -/
def Lists (n : Option (Node V)) (m : DMap V) : Prop :=
  ∃ (xs : List (Bytes × V)) (es : List (List Bytes × V)), DomTree.Enumerate n = some xs ∧
    xs.map (fun x => (parseLabels x.1, x.2)) = es.map (fun e => (some e.1, e.2)) ∧
    (es.map Prod.fst).Nodup ∧ ∀ q v, (q, v) ∈ es ↔ m q = some v

/-- Nil and zero nodes are the empty trees to start from. -/
def EmptyDT (n0 : Option (Node V)) : Prop := n0 = none ∨ n0 = some .new

/-- Text bytes for examples. -/
def txt (s : String) : Bytes := s.toList.map fun c => UInt8.ofNat c.toNat

/-- Name from text for examples. -/
def nm (s : String) : Name := match MakeNameFromString (txt s) with | .ok d => d | _ => ⟨[], []⟩

/-- C29 as stated is false of the code: `Get` ignores a value stored for the root domain. -/
theorem C29_false : ¬ ∀ (ops : List (Op Nat × DOp Nat)), (∀ p ∈ ops, OpDom p.1 p.2) → ∀ n, DomTree.run none (ops.map Prod.fst) = some n →
    ∀ d ls, Parsed d ls → ∃ r, DomTree.Get n d = some r ∧ DMap.IsClosest (lastDom (ops.map Prod.snd)) ls r := by
  intro h
  have hp : Parsed ⟨[], []⟩ [] := ⟨⟨[], rfl⟩, rfl⟩
  obtain ⟨r, h1, h2⟩ := h [(.insert ⟨[], []⟩ 1, .insert [] 1)] (by intro p hp'; simp at hp'; subst hp'; exact .insert hp) _ rfl ⟨[], []⟩ [] hp
  have hr : r = none := by
    have : DomTree.Get (V := Nat) (some (.mk none (some 1))) ⟨[], []⟩ = some none := rfl
    exact Option.some.inj (h1.symm.trans this)
  subst hr
  rcases h2 with ⟨p, v, h3, _⟩ | ⟨_, h3⟩
  · cases h3
  · have := h3 [] (by simp); simp [lastDom] at this

/-- C29, the part that holds: `Get` returns the closest enclosing stored domain among the non-root ones.  Missing: a
value stored for the root domain is never returned. -/
theorem C29_closest_partial {n0 : Option (Node V)} (h0 : EmptyDT n0) (ops : List (Op V × DOp V)) (h : ∀ p ∈ ops, OpDom p.1 p.2)
    {n : Option (Node V)} (hr : DomTree.run n0 (ops.map Prod.fst) = some n) {d : Name} {ls : List Bytes} (hd : Parsed d ls) :
    ∃ r, DomTree.Get n d = some r ∧ DMap.IsClosest (lastDom (ops.map Prod.snd)).noRoot ls r := by
  obtain ⟨_, h2⟩ := run_spec h0 ops h hr
  cases n with
  | none =>
    refine ⟨none, rfl, .inr ⟨rfl, fun p _ => ?_⟩⟩
    unfold DMap.noRoot
    rw [← h2]; simp [valueAt_new]
  | some n =>
    refine ⟨_, by unfold DomTree.Get; simp only; rw [hd.holds.getLabels]; rfl, ?_⟩
    simp only [base_some] at h2
    rcases get_fold n none ls with ⟨p, v, g1, g2, g3, g4, g5⟩ | ⟨g1, g2⟩
    · left
      refine ⟨p, v, g1, g3, by simp [DMap.noRoot, g2, ← h2, g4], ?_⟩
      intro p' v' hp hv
      unfold DMap.noRoot at hv
      split at hv
      · cases hv
      · rw [← h2] at hv; exact g5 p' v' hp hv
    · right
      refine ⟨g1, fun p hp => ?_⟩
      unfold DMap.noRoot
      split
      · rfl
      · rename_i hne; rw [← h2]; exact g2 p hne hp

/-- `Get` finds the closest stored domain; labels compare without case. -/
example : (DomTree.run (V := Nat) none [.delete (nm "b.test"), .insert (nm "x.EXAMPLE.com") 3, .insert (nm "b.test") 2, .insert (nm "example.com.") 1]).map
    (fun n => [nm "www.example.com", nm "com", nm "a.x.Example.COM", nm "b.test", nm "."].map (DomTree.Get n)) =
    some [some (some 1), some none, some (some 3), some none, some none] := by decide +kernel

theorem parsed_nm {s : String} (h : ∃ d, MakeNameFromString (txt s) = .ok d) {ls : List Bytes} (hl : (nm s).labels = some ls) :
    Parsed (nm s) ls := by
  obtain ⟨d, hd⟩ := h
  refine ⟨⟨txt s, ?_⟩, hl⟩
  unfold nm; rw [hd]

example : OpDom (V := Nat) (.insert (nm "a\\.b.Com") 1) (.insert [txt "COM", txt "A.B"] 1) :=
  .insert (parsed_nm ⟨_, rfl⟩ (by decide +kernel))

/-- C32: Enumerate lists each stored domain once with its value under a key that parses to it. -/
theorem C32_enumerate {n0 : Option (Node V)} (h0 : EmptyDT n0) (ops : List (Op V × DOp V)) (h : ∀ p ∈ ops, OpDom p.1 p.2)
    {n : Option (Node V)} (hr : DomTree.run n0 (ops.map Prod.fst) = some n) : Lists n (lastDom (ops.map Prod.snd)) := by
  obtain ⟨h1, h2⟩ := run_spec h0 ops h hr
  have hE : DomTree.Enumerate n = enumN (keyOf []) (base n) := by
    cases n with
    | none => rfl
    | some n => rw [base_some]; rfl
  obtain ⟨es, e1, e2, e3⟩ := enum_spec h1 [] (by simp [Short])
  refine ⟨_, es, by rw [hE, e1], ?_, ?_, ?_⟩
  · rw [List.map_map]
    apply List.map_congr_left
    rintro ⟨q, v⟩ he
    obtain ⟨d, hd⟩ := stored_parsed h (q := q) (v := v) (by rw [← h2]; exact (e2 q v).1 he)
    obtain ⟨d', p1, p2⟩ := hd.reparse
    simp [parseLabels, p1, p2]
  · rw [List.nodup_iff_pairwise_ne, List.pairwise_map]
    refine e3.imp ?_
    rintro ⟨a, _⟩ ⟨b, _⟩ hab rfl
    simp only at hab
    clear e1 e2
    induction a with
    | nil => exact hab
    | cons x a ih =>
      simp only [DomLt] at hab
      rcases hab with (hab | ⟨_, hab⟩) | ⟨_, hab⟩
      · omega
      · exact absurd hab (List.lt_irrefl x)
      · exact ih hab
  · intro q v; rw [e2, h2]

/-- C32: the listing depends on the stored entries only, not on the history. -/
theorem C32_same_listing {n0 n0' : Option (Node V)} (h0 : EmptyDT n0) (h0' : EmptyDT n0') (ops ops' : List (Op V × DOp V))
    (h : ∀ p ∈ ops, OpDom p.1 p.2) (h' : ∀ p ∈ ops', OpDom p.1 p.2)
    {n n' : Option (Node V)} (hr : DomTree.run n0 (ops.map Prod.fst) = some n) (hr' : DomTree.run n0' (ops'.map Prod.fst) = some n')
    (heq : ∀ q, lastDom (ops.map Prod.snd) q = lastDom (ops'.map Prod.snd) q) : DomTree.Enumerate n = DomTree.Enumerate n' := by
  obtain ⟨h1, h2⟩ := run_spec h0 ops h hr
  obtain ⟨h1', h2'⟩ := run_spec h0' ops' h' hr'
  have hE : ∀ n : Option (Node V), DomTree.Enumerate n = enumN (keyOf []) (base n) := by
    intro n
    cases n with
    | none => rfl
    | some n => rw [base_some]; rfl
  obtain ⟨es, e1, e2, e3⟩ := enum_spec h1 [] (by simp [Short])
  obtain ⟨fs, f1, f2, f3⟩ := enum_spec h1' [] (by simp [Short])
  rw [hE, hE, e1, f1]
  congr 2
  refine DomTree.domLt_unique e3 f3 fun q v => ?_
  rw [e2, f2, h2, h2', heq]

example : (DomTree.run (V := Nat) none [.insert (nm "") 0, .insert (nm "b.a") 3, .insert (nm "x\\.y.com") 1, .insert (nm "a") 2]).bind DomTree.Enumerate =
    some [(txt "", 0), (txt "a", 2), (txt "b.a", 3), (txt "x\\.y.com", 1)] := by decide +kernel

/-- C30: Delete reports whether the domain itself was stored and removes only it; names of up to 126 labels. -/
theorem C30_delete_partial {n0 : Option (Node V)} (h0 : EmptyDT n0) (ops : List (Op V × DOp V)) (h : ∀ p ∈ ops, OpDom p.1 p.2)
    {n : Option (Node V)} (hr : DomTree.run n0 (ops.map Prod.fst) = some n) {d : Name} {ls : List Bytes} (hd : Parsed d ls)
    (hlen : ls.length ≤ 126) :
    ∃ r, DomTree.Delete n d = some (r, (lastDom (ops.map Prod.snd) ls).isSome) ∧
      Lists r (lastDom (.delete ls :: ops.map Prod.snd)) := by
  obtain ⟨h1, h2⟩ := run_spec h0 ops h hr
  have hops : ∀ p ∈ (Op.delete (V := V) d, DOp.delete ls) :: ops, OpDom p.1 p.2 := by
    intro p hp
    rcases List.mem_cons.1 hp with rfl | hp
    · exact .delete hd
    · exact h p hp
  have hstep : ∀ r f, DomTree.Delete n d = some (r, f) → Lists r (lastDom (.delete ls :: ops.map Prod.snd)) := by
    intro r f hx
    exact C32_enumerate h0 _ hops (by simp [DomTree.run, hr, DomTree.step, hx])
  cases n with
  | none =>
    refine ⟨none, ?_, hstep _ _ rfl⟩
    have := h2 ls
    rw [base_none, valueAt_new] at this
    rw [← this]; rfl
  | some n =>
    simp only [base_some] at h1 h2
    rcases delete_api h1 hd.holds with ⟨g1, g2⟩ | ⟨m, r, g1, g2, g3, g4, g5⟩ | ⟨m, g1, g2, g3⟩
    · refine ⟨_, ?_, hstep _ _ g2⟩
      rw [g2, ← h2]; simp [valueAt, g1]
    · refine ⟨_, ?_, hstep _ _ g3⟩
      rw [g3, ← h2]; simp [valueAt, g1]
    · omega

/-- C31: DeleteSubdomains reports whether the domain or a subdomain was stored and removes exactly these; names of up
to 126 labels. -/
theorem C31_deleteSubdomains_partial {n0 : Option (Node V)} (h0 : EmptyDT n0) (ops : List (Op V × DOp V)) (h : ∀ p ∈ ops, OpDom p.1 p.2)
    {n : Option (Node V)} (hr : DomTree.run n0 (ops.map Prod.fst) = some n) {d : Name} {ls : List Bytes} (hd : Parsed d ls)
    (hlen : ls.length ≤ 126) :
    ∃ r f, DomTree.DeleteSubdomains n d = some (r, f) ∧ (f = true ↔ ∃ q v, ls <+: q ∧ lastDom (ops.map Prod.snd) q = some v) ∧
      Lists r (lastDom (.deleteSub ls :: ops.map Prod.snd)) := by
  obtain ⟨h1, h2⟩ := run_spec h0 ops h hr
  have hops : ∀ p ∈ (Op.deleteSub (V := V) d, DOp.deleteSub ls) :: ops, OpDom p.1 p.2 := by
    intro p hp
    rcases List.mem_cons.1 hp with rfl | hp
    · exact .deleteSub hd
    · exact h p hp
  have hstep : ∀ r f, DomTree.DeleteSubdomains n d = some (r, f) → Lists r (lastDom (.deleteSub ls :: ops.map Prod.snd)) := by
    intro r f hx
    exact C32_enumerate h0 _ hops (by simp [DomTree.run, hr, DomTree.step, hx])
  cases n with
  | none =>
    refine ⟨none, false, rfl, ?_, hstep _ _ rfl⟩
    simp only [base_none, valueAt_new] at h2
    simp [← h2]
  | some n =>
    simp only [base_some] at h1 h2
    rcases deleteSub_api h1 hd.holds with ⟨g1, g2⟩ | ⟨m, r, f, g1, g2, g3, g4, g5, g6⟩ | ⟨m, g1, g2, g3⟩
    · refine ⟨_, _, g2, ?_, hstep _ _ g2⟩
      simp only [Bool.false_eq_true, false_iff, not_exists]
      rintro q v ⟨⟨q', rfl⟩, hv⟩
      rw [← h2, valueAt_of_nodeAt_none g1] at hv; cases hv
    · refine ⟨_, _, g3, ?_, hstep _ _ g3⟩
      rw [g5]
      constructor
      · rintro ⟨q, v, hv⟩
        exact ⟨ls ++ q, v, ⟨q, rfl⟩, by rw [← h2, valueAt_append g1, hv]⟩
      · rintro ⟨q, v, ⟨q', rfl⟩, hv⟩
        exact ⟨q', v, by rw [← valueAt_append g1, h2, hv]⟩
    · omega

example : (DomTree.run (V := Nat) none [.insert (nm "b.a.com") 3, .insert (nm "a.com") 1, .insert (nm "com") 2]).bind (fun n =>
    (DomTree.Delete n (nm "a.com")).bind fun a => (DomTree.DeleteSubdomains n (nm "A.com")).bind fun b =>
      (DomTree.Enumerate a.1).bind fun x => (DomTree.Enumerate b.1).map fun y => ((x, a.2), (y, b.2))) =
    some (([(txt "com", 2), (txt "b.a.com", 3)], true), ([(txt "com", 2)], true)) := by decide +kernel

/-- A name of 127 labels. -/
def longText : Bytes := (List.replicate 127 [97, 46]).flatten

/-- C35 is false of the code: Delete and DeleteSubdomains of a stored domain with 127 labels panic. -/
theorem C35_false : ∃ d n, MakeNameFromString longText = .ok d ∧ DomTree.Insert none d (1 : Nat) = some n ∧
    DomTree.Delete n d = none ∧ DomTree.DeleteSubdomains n d = none := by
  have h1 : (match MakeNameFromString longText with
    | .ok d => match DomTree.Insert none d (1 : Nat) with
      | some n => (DomTree.Delete n d).isNone && (DomTree.DeleteSubdomains n d).isNone
      | none => false
    | _ => false) = true := by decide +kernel
  cases hd : MakeNameFromString longText with
  | ok d =>
    simp only [hd] at h1
    cases hn : DomTree.Insert none d (1 : Nat) with
    | some n => simp [hn] at h1; exact ⟨d, n, rfl, hn, h1.1, h1.2⟩
    | none => simp [hn] at h1
  | err e => simp [hd] at h1
  | panic => simp [hd] at h1

/-- C35: Insert and Get accept every parsed name. -/
theorem C35_insert_get {n0 : Option (Node V)} (h0 : EmptyDT n0) (ops : List (Op V × DOp V)) (h : ∀ p ∈ ops, OpDom p.1 p.2)
    {n : Option (Node V)} (hr : DomTree.run n0 (ops.map Prod.fst) = some n) {s : Bytes} {d : Name} (hd : MakeNameFromString s = .ok d)
    (v : V) : DomTree.Insert n d v ≠ none ∧ DomTree.Get n d ≠ none := by
  obtain ⟨ls, hl⟩ := holds_of_parse hd
  have hp : Parsed d ls := ⟨⟨s, hd⟩, hl.labels⟩
  obtain ⟨h1, _⟩ := run_spec h0 ops h hr
  obtain ⟨n', e, _⟩ := insert_api h1 hl v
  obtain ⟨r, e', _⟩ := C29_closest_partial h0 ops h hr hp
  exact ⟨by rw [e]; simp, by rw [e']; simp⟩

/-- C35, exactly when the deletions panic: the name has 127 labels and is stored (a name of 127 labels has no
subdomains, so the node exists only for a stored name). -/
theorem C35_delete_partial {n0 : Option (Node V)} (h0 : EmptyDT n0) (ops : List (Op V × DOp V)) (h : ∀ p ∈ ops, OpDom p.1 p.2)
    {n : Option (Node V)} (hr : DomTree.run n0 (ops.map Prod.fst) = some n) {d : Name} {ls : List Bytes} (hd : Parsed d ls) :
    (DomTree.Delete n d = none ↔ ls.length = 127 ∧ (lastDom (ops.map Prod.snd) ls).isSome = true) ∧
    (DomTree.DeleteSubdomains n d = none ↔ ls.length = 127 ∧ (lastDom (ops.map Prod.snd) ls).isSome = true) := by
  obtain ⟨h1, h2⟩ := run_spec h0 ops h hr
  cases n with
  | none =>
    simp only [base_none, valueAt_new] at h2
    simp [DomTree.Delete, DomTree.DeleteSubdomains, ← h2]
  | some n =>
    simp only [base_some] at h1 h2
    -- a node at 127 labels has a value
    have hval : ∀ m, nodeAt n ls = some m → ls.length = 127 → m.val.isSome = true := by
      intro m hm hlen
      have hlive : Live m := by
        rcases List.eq_nil_or_concat ls with rfl | ⟨ls', l, rfl⟩
        · simp at hlen
        · rw [List.concat_eq_append] at hm
          rw [nodeAt_append] at hm
          cases hk : nodeAt n ls' with
          | none => simp [hk] at hm
          | some k =>
            simp only [hk, Option.bind_some, nodeAt] at hm
            cases hg : DL.RawGet k.branches l with
            | none => simp [hg] at hm
            | some m' =>
              simp [hg] at hm; subst hm
              exact (h1.nodeAt hk).live hg
      obtain ⟨q, v, hv⟩ := live_value (h1.nodeAt hm) hlive
      rw [← valueAt_append hm, h2] at hv
      obtain ⟨d', hd'⟩ := stored_parsed h hv
      have := hd'.holds.count
      have : q = [] := by
        cases q with
        | nil => rfl
        | cons a q => simp at this; omega
      subst this
      rw [← h2, valueAt_append hm] at hv
      rw [valueAt_nil] at hv; simp [hv]
    constructor
    · rcases delete_api h1 hd.holds with ⟨g1, g2⟩ | ⟨m, r, g1, g2, g3, g4, g5⟩ | ⟨m, g1, g2, g3⟩
      · rw [g2, ← h2]; simp [valueAt, g1]
      · rw [g3]; simp; omega
      · rw [g3, ← h2]; simp [valueAt, g1, g2, hval m g1 g2]
    · rcases deleteSub_api h1 hd.holds with ⟨g1, g2⟩ | ⟨m, r, f, g1, g2, g3, g4, g5⟩ | ⟨m, g1, g2, g3⟩
      · rw [g2, ← h2]; simp [valueAt, g1]
      · rw [g3]; simp; omega
      · rw [g3, ← h2]; simp [valueAt, g1, g2, hval m g1 g2]

/-- C35: a history whose deletions have names of up to 126 labels never panics. -/
theorem C35_history_partial {n0 : Option (Node V)} (h0 : EmptyDT n0) (ops : List (Op V × DOp V)) (h : ∀ p ∈ ops, OpDom p.1 p.2)
    (hs : ∀ p ∈ ops, p.1.small) : ∃ n, DomTree.run n0 (ops.map Prod.fst) = some n := run_some h0 ops h hs

/-- C36: every node below the root has a value or branches. -/
theorem C36_no_dead {n0 : Option (Node V)} (h0 : EmptyDT n0) (ops : List (Op V × DOp V)) (h : ∀ p ∈ ops, OpDom p.1 p.2)
    {n : Node V} (hr : DomTree.run n0 (ops.map Prod.fst) = some (some n)) {q : List Bytes} {m : Node V} (hq : q ≠ [])
    (hm : nodeAt n q = some m) : m.val.isSome = true ∨ DL.IsEmpty m.branches = false := by
  obtain ⟨h1, _⟩ := run_spec h0 ops h hr
  rw [base_some] at h1
  rcases List.eq_nil_or_concat q with rfl | ⟨ls', l, rfl⟩
  · exact absurd rfl hq
  · rw [List.concat_eq_append, nodeAt_append] at hm
    cases hk : nodeAt n ls' with
    | none => simp [hk] at hm
    | some k =>
      simp only [hk, Option.bind_some, nodeAt] at hm
      cases hg : DL.RawGet k.branches l with
      | none => simp [hg] at hm
      | some m' =>
        simp [hg] at hm; subst hm
        exact (h1.nodeAt hk).live hg

/-- C36: hence every node below the root leads to a stored domain. -/
theorem C36_useful {n0 : Option (Node V)} (h0 : EmptyDT n0) (ops : List (Op V × DOp V)) (h : ∀ p ∈ ops, OpDom p.1 p.2)
    {n : Node V} (hr : DomTree.run n0 (ops.map Prod.fst) = some (some n)) {q : List Bytes} {m : Node V} (hq : q ≠ [])
    (hm : nodeAt n q = some m) : ∃ q' v, q <+: q' ∧ lastDom (ops.map Prod.snd) q' = some v := by
  obtain ⟨h1, h2⟩ := run_spec h0 ops h hr
  rw [base_some] at h1 h2
  obtain ⟨q', v, hv⟩ := live_value (h1.nodeAt hm) (C36_no_dead h0 ops h hr hq hm)
  exact ⟨q ++ q', v, ⟨q', rfl⟩, by rw [← h2, valueAt_append hm, hv]⟩

/-- After deleting the only name under `com` the node of `com` is gone as well. -/
example : (DomTree.run (V := Nat) none [.delete (nm "a.b.com"), .insert (nm "a.b.com") 1]).map
    (fun n => n.map fun k => (nodeAt k [txt "COM"]).isSome) = some (some false) := by decide +kernel

/-- C34 is false of the code: after `Insert "com"` the node of `com` has no branch tree and `InplaceInsert "a.com"` panics. -/
theorem C34_false : ∃ n, DomTree.Insert none (nm "com") (1 : Nat) = some n ∧ DomTree.InplaceInsert n (nm "a.com") 2 = none := by
  have h : (match DomTree.Insert none (nm "com") (1 : Nat) with
    | some n => (DomTree.InplaceInsert n (nm "a.com") 2).isNone
    | none => false) = true := by decide +kernel
  cases hn : DomTree.Insert none (nm "com") (1 : Nat) with
  | some n => simp [hn] at h; exact ⟨n, rfl, h⟩
  | none => simp [hn] at h

/-- C34: whenever `InplaceInsert` does not panic the contents are those `Insert` returns.  Missing: it panics on some
trees built by `Insert` (`C34_false`). -/
theorem C34_contents_partial {n0 : Option (Node V)} (h0 : EmptyDT n0) (ops : List (Op V × DOp V)) (h : ∀ p ∈ ops, OpDom p.1 p.2)
    {n : Option (Node V)} (hr : DomTree.run n0 (ops.map Prod.fst) = some n) {d : Name} {ls : List Bytes} (hd : Parsed d ls)
    (v : V) {a : Option (Node V)} (ha : DomTree.InplaceInsert n d v = some a) :
    ∃ b, DomTree.Insert n d v = some b ∧ DomTree.Enumerate a = DomTree.Enumerate b ∧
      (∀ e ls', Parsed e ls' → DomTree.Get a e = DomTree.Get b e) ∧
      Lists a (lastDom (.insert ls v :: ops.map Prod.snd)) := by
  obtain ⟨h1, h2⟩ := run_spec h0 ops h hr
  obtain ⟨b, hb, _⟩ := insert_api h1 hd.holds v
  have ra : DomTree.run n0 (((.inplace d v, .insert ls v) :: ops).map Prod.fst) = some a := by
    simp [DomTree.run, hr, DomTree.step, ha]
  have rb : DomTree.run n0 (((.insert d v, .insert ls v) :: ops).map Prod.fst) = some (some b) := by
    simp [DomTree.run, hr, DomTree.step, hb]
  have oa : ∀ p ∈ (Op.inplace d v, DOp.insert ls v) :: ops, OpDom p.1 p.2 := by
    intro p hp
    simp only [List.mem_cons] at hp
    rcases hp with rfl | hp
    · exact .inplace hd
    · exact h p hp
  have ob : ∀ p ∈ (Op.insert d v, DOp.insert ls v) :: ops, OpDom p.1 p.2 := by
    intro p hp
    simp only [List.mem_cons] at hp
    rcases hp with rfl | hp
    · exact .insert hd
    · exact h p hp
  refine ⟨some b, hb, C32_same_listing h0 h0 _ _ oa ob ra rb (fun q => rfl), ?_, C32_enumerate h0 _ oa ra⟩
  intro e ls' he
  obtain ⟨r, r1, r2⟩ := C29_closest_partial h0 _ oa ra he
  obtain ⟨s, s1, s2⟩ := C29_closest_partial h0 _ ob rb he
  rw [r1, s1, DMap.IsClosest.unique r2 s2]

/-- C34, which calls panic: on every tree a history made, `InplaceInsert` panics exactly when the tree is a nil `*Node` or the name
lies below a closed name, i.e. one that `Insert` brought in as a leaf and below which nothing was inserted since. -/
theorem C34_panics_iff {n0 : Option (Node V)} (h0 : EmptyDT n0) (ops : List (Op V × DOp V)) (h : ∀ p ∈ ops, OpDom p.1 p.2)
    {n : Option (Node V)} (hr : DomTree.run n0 (ops.map Prod.fst) = some n) {d : Name} {ls : List Bytes} (hd : Parsed d ls) (v : V) :
    DomTree.InplaceInsert n d v = none ↔
      (n0 = none ∧ ∀ e x, Op.insert e x ∉ ops.map Prod.fst) ∨
      ∃ q, q ≠ [] ∧ q <+: ls ∧ q ≠ ls ∧ Closed (ops.map fun p => (p.1.inPlace, p.2)) q :=
  inplace_none_iff h0 ops h hr hd.holds v

/-- `com` is closed by inserting it into an empty tree and opened by inserting something below; deleting what is below does not
close it again, deleting `com` and inserting it anew does. -/
example :
    (DomTree.run (V := Nat) none [.inplace (nm "a.com") 2, .insert (nm "com") 1]).isNone = true ∧
    (DomTree.run (V := Nat) none [.inplace (nm "a.com") 2, .delete (nm "b.com"), .insert (nm "b.com") 3, .insert (nm "com") 1]).isSome = true ∧
    (DomTree.run (V := Nat) none [.inplace (nm "a.com") 2, .insert (nm "com") 3, .deleteSub (nm "com"), .insert (nm "b.com") 3, .insert (nm "com") 1]).isNone = true := by
  decide +kernel

example : Closed (V := Nat) [(false, .insert [txt "COM"] 1)] [txt "COM"] := .inl ⟨rfl, .inr fun _ _ => rfl⟩
example : ¬ Closed (V := Nat) [(false, .delete [txt "COM", txt "B"]), (false, .insert [txt "COM", txt "B"] 3), (false, .insert [txt "COM"] 1)] [txt "COM"] := by
  rintro ⟨_, ⟨h, _⟩ | ⟨h, _⟩⟩
  · revert h; decide +kernel
  · exact h ⟨[txt "B"], rfl⟩

/-- C34: on trees built from the zero node without `Insert`, `InplaceInsert` of any name never panics (deletions of
names of up to 126 labels).  Missing: trees on which `Insert` was used. -/
theorem C34_no_panic_partial (ops : List (Op V × DOp V)) (h : ∀ p ∈ ops, OpDom p.1 p.2) (hs : ∀ p ∈ ops, p.1.noInsert) :
    ∃ n, DomTree.run (some .new) (ops.map Prod.fst) = some n ∧ ∀ d ls, Parsed d ls → ∀ v, DomTree.InplaceInsert n d v ≠ none := by
  obtain ⟨n, hn, hf⟩ := run_noInsert ops h hs
  refine ⟨_, hn, fun d ls hd v => ?_⟩
  have hw := (run_spec (.inr rfl) ops h hn).1
  rw [base_some] at hw
  obtain ⟨n', h1, _⟩ := inplace_full hw hf hd.holds v
  rw [h1]; simp

example : (DomTree.run (V := Nat) (some .new) [.inplace (nm "www.example.com") 4, .delete (nm "a.com"), .inplace (nm "a.com") 2,
    .inplace (nm "com") 1]).bind DomTree.Enumerate = some [(txt "com", 1), (txt "www.example.com", 4)] := by decide +kernel

end Verif.Props
