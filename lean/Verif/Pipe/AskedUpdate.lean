import Verif.Pipe.Asked
import Verif.IPHeap.Recover

/-!
# UpdateDescendants with a callback that asks questions

The callback may ask the trees the client holds, the one being updated included, before it answers.
-/

namespace Verif.Pipe
open Verif Verif.Heap Verif.Heap.Prog Verif.Num Verif.NumHeap Verif.IP Verif.IPHeap

variable {D X B τ V K A : Type}

/-- What the callback does: a question, going on as the answer says, or the end with a result. -/
inductive Inquiry (K A β : Type) where
  | done (x : β)
  | ask (k : K) (next : A → Inquiry K A β)

/-- One call of the callback: what it was called with, what it asked and was told, its result. -/
structure CallRec (V K A : Type) where
  key : IPNet
  val : V
  heard : List (K × A)
  res : V × Bool

/-- The questions as a program, collecting the answers. -/
def Inquiry.prog {β : Type} (Rd : K → Prog D A) : Inquiry K A β → List (K × A) → Prog D (List (K × A) × β)
  | .done x, l => pure (l, x)
  | .ask k next, l => Rd k >>= fun a => (next a).prog Rd (l ++ [(k, a)])

/-- One call of the callback. -/
def callP (Rd : K → Prog D A) (cb : List (CallRec V K A) → IPNet → V → Inquiry K A (V × Bool)) (t : List (CallRec V K A)) (key : IPNet) (v : V) : Prog D (CallRec V K A) :=
  (cb t key v).prog Rd [] >>= fun x => pure ⟨key, v, x.1, x.2⟩

variable {ε : Type} (ask : List (CallRec V K A) → IPNet → V → Prog (IPD V) (CallRec V K A))

/-- iptree/iptree.go:130-136 as `visit4`, the callback being a program. -/
def body4Q {α : Type} (a : Addr) (t : List (CallRec V K A)) (k : List (CallRec V K A) → Main (IPD V) Fields Addr α) : Main (IPD V) Fields Addr α :=
  .prog ((load (some a)).lift k32) fun nc => .prog (ask t (key4 nc.d) nc.d.value) fun e =>
    if e.res.2 then .prog ((upd (some a) fun c => { c with d := { c.d with value := e.res.1 } }).lift k32) fun _ => k (t ++ [e]) else k (t ++ [e])

/-- iptree/iptree.go:96-116 `updateNode64` as `updateNode64P`, the callback being a program. -/
def node64Q {α : Type} (key : ND 64 (HV V) → IPNet) (a : Addr) (t : List (CallRec V K A)) (k : List (CallRec V K A) → Main (IPD V) Fields Addr α) : Main (IPD V) Fields Addr α :=
  .prog ((load (some a)).lift k64) fun nc => match nc.d.value with
    | .sub _ => .stop .panic
    | .user v => .prog (ask t (key nc.d) v) fun e =>
      if e.res.2 then .prog ((upd (some a) fun c => { c with d := { c.d with value := .user e.res.1 } }).lift k64) fun _ => k (t ++ [e]) else k (t ++ [e])

/-- iptree/iptree.go:172-181 as `body6M`, the callback being a program. -/
def body6Q {α : Type} (f rounds : Nat) (a : Addr) (t : List (CallRec V K A)) (k : List (CallRec V K A) → Main (IPD V) Fields Addr α) : Main (IPD V) Fields Addr α :=
  .prog ((load (some a)).lift k64) fun c => match c.d.value with
    | .sub p => .go (numGen id id f p) fun i => .range i (node64Q ask (key6s c.d.key)) rounds t k
    | .user _ => node64Q ask key6 a t k

/-- iptree/iptree.go:119-183 `UpdateDescendants` as `updM`, the callback being a program; the result is the record of its calls. -/
def updQ (f rounds : Nat) (t : Ptr) (n : Option IPNet) : Main (IPD V) Fields Addr (List (CallRec V K A)) :=
  match n with
  | none => .stop .panic
  | some n =>
    match v4Key n with
    | some (key, bits) =>
      .prog (rootsP t) fun r => .prog ((FindNodeP f r.1 key bits).lift k32) fun target =>
        if target = none then .ret [] else descM k32 (body4Q ask) (f + 2) rounds target [] .ret
    | none =>
      match v6Pair n with
      | none => .ret []
      | some k =>
        .prog (rootsP t) fun r => .prog ((FindNodeP f r.2 k.msKey k.msBits).lift k64) fun target =>
          if target = none then .ret [] else
          .prog ((load target).lift k64) fun c => match c.d.value with
            | .sub s2 => .prog ((load s2).lift k64) fun sc =>
              .prog ((if sc.d.key = k.lsKey ∧ (sc.d.bits : Int) = k.lsBits then pure s2 else FindNodeP f s2 k.lsKey k.lsBits).lift k64) fun target =>
                if target = none then .ret [] else descM k64 (node64Q ask (key6s k.msKey)) (f + 2) rounds target [] .ret
            | .user _ => descM k64 (body6Q ask (f + 1) rounds) (f + 2) rounds target [] .ret

/-! ## The callback with the results from a list -/

/-- What the callback was called with. -/
def CallRec.got (e : CallRec V K A) : IPNet × V := (e.key, e.val)

/-- The callback that gives the results of the recorded calls, and asks for no change after that. -/
def replay (t : List (CallRec V K A)) (s : List (IPNet × V)) (_ : IPNet) (v : V) : V × Bool :=
  match t[s.length]? with
  | some e => e.res
  | none => (v, false)

/-- The next call, if the caller with the results `t` ends with the log `x`. -/
def Next (t : List (CallRec V K A)) (p : Prog (IPD V) (CallRec V K A)) (x : List (IPNet × V)) : Prop := ∃ key v, x[t.length]? = some (key, v) ∧ p = ask t key v

/-- The calls are those of the log. -/
def Full (t : List (CallRec V K A)) (x : List (IPNet × V)) : Prop := x = t.map CallRec.got

variable {ask}

/-- What follows after a state, for the asking caller and the ones with lists. -/
structure Inquires (ask : List (CallRec V K A) → IPNet → V → Prog (IPD V) (CallRec V K A)) (b : Nat) (k : List (CallRec V K A) → Main (IPD V) Fields Addr (List (CallRec V K A)))
    (k' : List (CallRec V K A) → List (IPNet × V) → Main (IPD V) Fields Addr (List (IPNet × V))) : Prop where
  asks : ∀ t, (k t).Asking (Next ask) Full b (fun t' => k' t' (t.map CallRec.got)) t
  rest : ∀ t w s, t.length ≤ w.length → w <+: s → (k' t s).Idle (w <+: ·)

theorem Inquires.ret : Inquires ask 0 .ret (fun _ => .ret) := ⟨fun _ => .ret (fun _ _ => rfl) rfl, fun _ _ _ _ h => .ret h⟩

theorem Inquires.mono {b b' : Nat} {k : List (CallRec V K A) → Main (IPD V) Fields Addr (List (CallRec V K A))}
    {k' : List (CallRec V K A) → List (IPNet × V) → Main (IPD V) Fields Addr (List (IPNet × V))} (h : Inquires ask b k k') (hb : b ≤ b') : Inquires ask b' k k' :=
  ⟨fun t => (h.asks t).mono hb, h.rest⟩

theorem Inquires.after {β : Type} {b : Nat} {p : Prog (IPD V) β} (hp : Idle (fun _ => True) p) {k : β → List (CallRec V K A) → Main (IPD V) Fields Addr (List (CallRec V K A))}
    {k' : β → List (CallRec V K A) → List (IPNet × V) → Main (IPD V) Fields Addr (List (IPNet × V))} (h : ∀ y, Inquires ask b (k y) (k' y)) :
    Inquires ask b (fun t => .prog p fun y => k y t) (fun t' s => .prog p fun y => k' y t' s) :=
  ⟨fun t => .after p fun y => (h y).asks t, fun t w s h1 h2 => .prog hp fun y _ => (h y).rest t w s h1 h2⟩

theorem Inquires.stop {b : Nat} {e : Err} : Inquires ask b (fun _ => .stop e) (fun _ _ => .stop e) := ⟨fun _ => .stop fun _ _ => rfl, fun _ _ _ _ _ => .stop⟩

theorem Inquires.go {b : Nat} {g : Gen Fields Addr} {k : Nat → List (CallRec V K A) → Main (IPD V) Fields Addr (List (CallRec V K A))}
    {k' : Nat → List (CallRec V K A) → List (IPNet × V) → Main (IPD V) Fields Addr (List (IPNet × V))} (h : ∀ y, Inquires ask b (k y) (k' y)) :
    Inquires ask b (fun t => .go g fun y => k y t) (fun t' s => .go g fun y => k' y t' s) :=
  ⟨fun t => .go (fun _ _ => rfl) fun y => (h y).asks t, fun t w s h1 h2 => .go fun y => (h y).rest t w s h1 h2⟩

theorem Inquires.recv {b : Nat} {i : Nat} {k : Option Addr → List (CallRec V K A) → Main (IPD V) Fields Addr (List (CallRec V K A))}
    {k' : Option Addr → List (CallRec V K A) → List (IPNet × V) → Main (IPD V) Fields Addr (List (IPNet × V))} (h : ∀ y, Inquires ask b (k y) (k' y)) :
    Inquires ask b (fun t => .recv i fun y => k y t) (fun t' s => .recv i fun y => k' y t' s) :=
  ⟨fun t => .recv (fun _ _ => rfl) fun y => (h y).asks t, fun t w s h1 h2 => .recv fun y => (h y).rest t w s h1 h2⟩

theorem Inquires.range {body : Addr → List (CallRec V K A) → (List (CallRec V K A) → Main (IPD V) Fields Addr (List (CallRec V K A))) → Main (IPD V) Fields Addr (List (CallRec V K A))}
    {body' : List (CallRec V K A) → Addr → List (IPNet × V) → (List (IPNet × V) → Main (IPD V) Fields Addr (List (IPNet × V))) → Main (IPD V) Fields Addr (List (IPNet × V))} {c : Nat}
    (hb : ∀ b a k k', Inquires ask b k k' → Inquires ask (b + c) (fun t => body a t k) (fun t' s => body' t' a s (k' t')))
    {b : Nat} {k : List (CallRec V K A) → Main (IPD V) Fields Addr (List (CallRec V K A))} {k' : List (CallRec V K A) → List (IPNet × V) → Main (IPD V) Fields Addr (List (IPNet × V))}
    (h : Inquires ask b k k') (i rounds : Nat) : Inquires ask (b + rounds * c) (fun t => .range i body rounds t k) (fun t' s => .range i (body' t') rounds s (k' t')) := by
  induction rounds with
  | zero => exact .stop
  | succ n ih =>
    have e : b + (n + 1) * c = b + n * c + c := by rw [Nat.succ_mul]; omega
    have key : ∀ a, Inquires ask (b + (n + 1) * c) (fun t => body a t fun t => .range i body n t k) (fun t' s => body' t' a s fun s => .range i (body' t') n s (k' t')) := fun a => e ▸ hb _ _ _ _ ih
    have h' := h.mono (Nat.le_add_right b ((n + 1) * c))
    refine ⟨fun t => .recv (k' := fun t' o => match o with | none => k' t' (t.map CallRec.got) | some a => body' t' a (t.map CallRec.got) fun s => .range i (body' t') n s (k' t')) (fun _ _ => by simp only [Main.range]; congr 1; funext o; cases o <;> rfl) fun o => ?_,
      fun t w s h1 h2 => .recv fun o => ?_⟩ <;> cases o with
    | none => first | exact h'.asks t | exact h'.rest t w s h1 h2
    | some a => first | exact (key a).asks t | exact (key a).rest t w s h1 h2

/-! ## A call of the callback -/

/-- What the questioning gives is recorded as a call with this key and value. -/
def Honest (ask : List (CallRec V K A) → IPNet → V → Prog (IPD V) (CallRec V K A)) : Prop := ∀ t key v h e r, Peeks h (ask t key v) e r → e.got = (key, v)

theorem Main.Idle.mono {σ : Type} {dead dead' : σ → Prop} {m : Main D X B σ} (hm : m.Idle dead) (h : ∀ s, dead s → dead' s) : m.Idle dead' := by
  induction hm with
  | ret hs => exact .ret (h _ hs)
  | stop => exact .stop
  | read _ ih => exact .read ih
  | go _ ih => exact .go ih
  | recv _ ih => exact .recv ih

theorem replay_past {t : List (CallRec V K A)} {s : List (IPNet × V)} (h : t.length ≤ s.length) (key : IPNet) (v : V) : replay t s key v = (v, false) := by
  simp [replay, List.getElem?_eq_none h]

theorem Inquires.call (ho : Honest ask) {b : Nat} {k : List (CallRec V K A) → Main (IPD V) Fields Addr (List (CallRec V K A))}
    {k' : List (CallRec V K A) → List (IPNet × V) → Main (IPD V) Fields Addr (List (IPNet × V))} (h : Inquires ask b k k') (key : IPNet) (v : V) (W : V → Prog (IPD V) Unit) :
    Inquires ask (b + 1) (fun t => .prog (ask t key v) fun e => if e.res.2 then .prog (W e.res.1) fun _ => k (t ++ [e]) else k (t ++ [e]))
      (fun t' s => if (replay t' s key v).2 then .prog (W (replay t' s key v).1) fun _ => k' t' (s ++ [(key, v)]) else k' t' (s ++ [(key, v)])) where
  asks t := by
    refine .ask ?_ fun e he => ?_
    · rw [replay_past (by simp)]
      refine (h.rest t (t.map CallRec.got ++ [(key, v)]) _ (by simp) (List.prefix_refl _)).mono fun x hx => ⟨key, v, ?_, rfl⟩
      obtain ⟨y, rfl⟩ := hx
      simp
    · obtain ⟨h0, r, hp⟩ := he
      have hg := ho _ _ _ _ _ _ hp
      have e1 : (t ++ [e]).map CallRec.got = t.map CallRec.got ++ [(key, v)] := by simp [hg]
      have e2 : ∀ t', t ++ [e] <+: t' → replay t' (t.map CallRec.got) key v = e.res := by
        rintro t' ⟨y, rfl⟩
        simp [replay]
      have := h.asks (t ++ [e])
      rw [e1] at this
      by_cases hc : e.res.2
      · rw [if_pos hc]
        exact (Main.Asking.after (W e.res.1) fun _ => this).congr fun t' ht => by rw [e2 t' ht, if_pos hc]
      · rw [if_neg hc]
        exact this.congr fun t' ht => by rw [e2 t' ht, if_neg hc]
  rest t w s h1 h2 := by
    rw [replay_past (Nat.le_trans h1 h2.length_le)]
    exact h.rest t w _ h1 (h2.trans (List.prefix_append _ _))

theorem load_idle {E : Type} (Kd : Kind D E) (p : Ptr) : Idle (fun _ => True) ((load p).lift Kd) := by
  cases p with
  | none => exact .stop
  | some a => exact Idle.lift Kd (.read fun _ => .ret trivial)

theorem prog_then {α β γ : Type} (p : Prog D β) (k : β → Prog D γ) (m : γ → Main D X B α) : Main.prog (p >>= k) m = .prog p fun y => .prog (k y) m := by
  show Main.prog (p.bind k) m = _
  induction p with
  | ret y => rfl
  | stop e => rfl
  | read a c ih => simp only [Prog.bind, Main.prog]; congr 1; funext c; exact ih c
  | write a c q ih => simp only [Prog.bind, Main.prog, ih]
  | alloc c q ih => simp only [Prog.bind, Main.prog]; congr 1; funext c; exact ih c

theorem body4_goes (ho : Honest ask) {b : Nat} {a : Addr} {k : List (CallRec V K A) → Main (IPD V) Fields Addr (List (CallRec V K A))}
    {k' : List (CallRec V K A) → List (IPNet × V) → Main (IPD V) Fields Addr (List (IPNet × V))} (h : Inquires ask b k k') :
    Inquires ask (b + 1) (fun t => body4Q ask a t k) (fun t' s => bodyM k32 (visit4 (logged (replay t'))) a s (k' t')) := by
  have e : ∀ t' s, bodyM k32 (visit4 (logged (replay t'))) a s (k' t') = .prog ((load (some a)).lift k32) fun nc =>
      if (replay t' s (key4 nc.d) nc.d.value).2 then .prog ((upd (some a) fun c => { c with d := { c.d with value := (replay t' s (key4 nc.d) nc.d.value).1 } }).lift k32)
        fun _ => k' t' (s ++ [(key4 nc.d, nc.d.value)]) else k' t' (s ++ [(key4 nc.d, nc.d.value)]) := by
    intro t' s
    unfold bodyM visit4
    rw [lift_bind, prog_then]
    congr 1
    funext nc
    rw [show logged (replay t') s (key4 nc.d) nc.d.value = (replay t' s (key4 nc.d) nc.d.value, s ++ [(key4 nc.d, nc.d.value)]) from rfl]
    generalize replay t' s (key4 nc.d) nc.d.value = z
    obtain ⟨v', _ | _⟩ := z
    · rfl
    · exact (congrArg (Main.prog · (k' t')) (lift_bind _ _ _)).trans (prog_then _ _ _)
  simp only [e]
  exact .after (load_idle k32 _) fun nc => h.call ho _ _ fun x => (upd (some a) fun c => { c with d := { c.d with value := x } }).lift k32

theorem node64_goes (ho : Honest ask) (key : ND 64 (HV V) → IPNet) {b : Nat} {a : Addr} {k : List (CallRec V K A) → Main (IPD V) Fields Addr (List (CallRec V K A))}
    {k' : List (CallRec V K A) → List (IPNet × V) → Main (IPD V) Fields Addr (List (IPNet × V))} (h : Inquires ask b k k') :
    Inquires ask (b + 1) (fun t => node64Q ask key a t k) (fun t' s => bodyM k64 (updateNode64P (logged (replay t')) key) a s (k' t')) := by
  have e : ∀ t' s, bodyM k64 (updateNode64P (logged (replay t')) key) a s (k' t') = .prog ((load (some a)).lift k64) fun nc => match nc.d.value with
      | .sub _ => .stop .panic
      | .user v => if (replay t' s (key nc.d) v).2 then .prog ((upd (some a) fun c => { c with d := { c.d with value := .user (replay t' s (key nc.d) v).1 } }).lift k64)
        fun _ => k' t' (s ++ [(key nc.d, v)]) else k' t' (s ++ [(key nc.d, v)]) := by
    intro t' s
    unfold bodyM updateNode64P
    rw [lift_bind, prog_then]
    congr 1
    funext nc
    cases nc.d.value with
    | sub _ => rfl
    | user v =>
      simp only
      rw [show logged (replay t') s (key nc.d) v = (replay t' s (key nc.d) v, s ++ [(key nc.d, v)]) from rfl]
      generalize replay t' s (key nc.d) v = z
      obtain ⟨v', _ | _⟩ := z
      · rfl
      · exact (congrArg (Main.prog · (k' t')) (lift_bind _ _ _)).trans (prog_then _ _ _)
  simp only [e]
  refine .after (load_idle k64 _) fun nc => ?_
  cases nc.d.value with
  | sub _ => exact .stop
  | user v => exact h.call ho _ _ fun x => (upd (some a) fun c => { c with d := { c.d with value := .user x } }).lift k64

theorem body6_goes (ho : Honest ask) (f rounds : Nat) {b : Nat} {a : Addr} {k : List (CallRec V K A) → Main (IPD V) Fields Addr (List (CallRec V K A))}
    {k' : List (CallRec V K A) → List (IPNet × V) → Main (IPD V) Fields Addr (List (IPNet × V))} (h : Inquires ask b k k') :
    Inquires ask (b + (rounds + 1)) (fun t => body6Q ask f rounds a t k) (fun t' s => body6M (logged (replay t')) f rounds a s (k' t')) := by
  unfold body6Q body6M
  refine .after (load_idle k64 _) fun nc => ?_
  cases nc.d.value with
  | sub p => exact .go fun i => ((h.range (body' := fun t' => bodyM k64 (updateNode64P (logged (replay t')) (key6s nc.d.key))) (fun _ _ _ _ => node64_goes ho _) i rounds)).mono (by omega)
  | user v => exact (node64_goes ho _ h).mono (by omega)

theorem desc_goes {w : Nat} {W : Type} (Kd : Kind (ND w W) (IPD V))
    {body : Addr → List (CallRec V K A) → (List (CallRec V K A) → Main (IPD V) Fields Addr (List (CallRec V K A))) → Main (IPD V) Fields Addr (List (CallRec V K A))}
    {body' : List (CallRec V K A) → Addr → List (IPNet × V) → (List (IPNet × V) → Main (IPD V) Fields Addr (List (IPNet × V))) → Main (IPD V) Fields Addr (List (IPNet × V))} {c : Nat}
    (hb : ∀ b a k k', Inquires ask b k k' → Inquires ask (b + c) (fun t => body a t k) (fun t' s => body' t' a s (k' t'))) (f rounds : Nat) (target : Ptr) :
    (descM Kd body f rounds target [] .ret).Asking (Next ask) Full (rounds * c) (fun t' => descM Kd (body' t') f rounds target [] .ret) [] := by
  refine .go (fun _ _ => rfl) fun i => .after _ fun nc => ?_
  have key := (Inquires.range hb (Inquires.ret (ask := ask)) i rounds).asks []
  rw [Nat.zero_add] at key
  by_cases hl : nc.d.leaf
  · simp only [hl, if_true]
    exact .recv (fun _ _ => rfl) fun _ => key
  · simp only [hl]
    exact key

/-- The asking `UpdateDescendants` beside the one with the results from a list. -/
theorem updQ_asks (ho : Honest ask) (f rounds : Nat) (r : Ptr) (n : Option IPNet) :
    (updQ ask f rounds r n).Asking (Next ask) Full (rounds * (rounds + 1)) (fun t' => updM f rounds (logged (replay t')) r n []) [] := by
  have hret : (Main.ret [] : Main (IPD V) Fields Addr (List (CallRec V K A))).Asking (Next ask) Full (rounds * (rounds + 1)) (fun _ => .ret []) [] := .ret (fun _ _ => rfl) rfl
  have hle : rounds * 1 ≤ rounds * (rounds + 1) := Nat.mul_le_mul_left _ (by omega)
  unfold updQ updM
  cases n with
  | none => exact .stop fun _ _ => rfl
  | some n =>
    simp only
    cases v4Key n with
    | some kb =>
      refine .after _ fun r => .after _ fun target => ?_
      by_cases ht : target = none
      · simp only [if_pos ht]; exact hret
      · simp only [if_neg ht]
        exact (desc_goes k32 (body' := fun t' => bodyM k32 (visit4 (logged (replay t')))) (fun _ _ _ _ => body4_goes ho) _ _ _).mono hle
    | none =>
      simp only
      cases v6Pair n with
      | none => exact hret
      | some k =>
        refine .after _ fun r => .after _ fun target => ?_
        by_cases ht : target = none
        · simp only [if_pos ht]; exact hret
        · simp only [if_neg ht]
          refine .after _ fun c => ?_
          cases c.d.value with
          | sub s2 =>
            refine .after _ fun sc => .after _ fun tg => ?_
            by_cases ht : tg = none
            · simp only [if_pos ht]; exact hret
            · simp only [if_neg ht]
              exact (desc_goes k64 (body' := fun t' => bodyM k64 (updateNode64P (logged (replay t')) (key6s k.msKey))) (fun _ _ _ _ => node64_goes ho _) _ _ _).mono hle
          | user v => exact desc_goes k64 (body' := fun t' => body6M (logged (replay t')) (f + 1) rounds) (fun _ _ _ _ => body6_goes ho _ _) _ _ _

end Verif.Pipe
