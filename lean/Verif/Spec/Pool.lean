import Verif.Model.Pool
/-! # Specification of successive movements -/
namespace Verif.Spec
open Verif

/-- Movement `m` has come to its end. -/
def HasFinished (tr : List Happening) (m : ℕ) : Prop := ∃ e, Happening.came m e ∈ tr ∧ e.act = .finished

/-- Movements are numbered in the order in which they were asked for: whenever one of them is initiated all earlier ones have
finished. -/
def NoOverlap (tr : List Happening) : Prop :=
  ∀ pre post n e, tr = pre ++ .came n e :: post → e.act = .initiated → ∀ m < n, HasFinished pre m

/-- Movement `p` was asked for when all earlier ones had finished. -/
def AskedAtRest (tr : List Happening) (p : ℕ) : Prop :=
  ∀ pre key t, pre ++ [.asked p key t] <+: tr → ∀ m < p, HasFinished pre m

/-- Movements are asked for in batches: the first one of a batch when all earlier movements have finished, the others before any
movement of the batch has finished. -/
def InBatches (tr : List Happening) : Prop :=
  ∀ pre post n key t, tr = pre ++ .asked n key t :: post →
    ∃ p ≤ n, (∀ m < p, HasFinished pre m) ∧ (∀ m, p ≤ m → ¬ HasFinished pre m) ∧ AskedAtRest pre p

end Verif.Spec
