/-! # Delivery of a list over a channel, for any transition system -/

namespace Verif.Spec

universe u

/-- Runs of a given length. -/
inductive Runs {S : Type u} (R : S → S → Prop) : Nat → S → S → Prop where
  | refl (x : S) : Runs R 0 x x
  | step {x y z : S} {n : Nat} : Runs R n x y → R y z → Runs R (n + 1) x z

/-- However the steps interleave, the receiver obtains exactly `l`, in order, and then sees the end; nothing is left
running. -/
structure Delivers {S : Type u} {A : Type} (R : S → S → Prop) (init : S) (got : S → List A) (seen finished : S → Prop)
    (l : List A) : Prop where
  /-- nothing is received out of order, twice or without being in the list -/
  inOrder : ∀ n σ, Runs R n init σ → got σ <+: l
  /-- the end is not seen early -/
  complete : ∀ n σ, Runs R n init σ → seen σ → got σ = l
  /-- no goroutine survives the loop -/
  noLeak : ∀ n σ, Runs R n init σ → seen σ → finished σ
  /-- until the receiver has seen the end something can move -/
  noDeadlock : ∀ n σ, Runs R n init σ → ¬ seen σ → ∃ τ, R σ τ
  /-- there are no endless runs -/
  terminates : ∃ N, ∀ n σ, Runs R n init σ → n ≤ N

end Verif.Spec
