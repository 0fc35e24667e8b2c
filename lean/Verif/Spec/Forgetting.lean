import Verif.Spec.Retrieve
/-! # Specification of forgetting -/
namespace Verif.Spec
open Verif

/-- What the chunk at position `k` gets in addition to its base level if it fits as well as `pm`: spreading activation, fit and noise. -/
noncomputable def Help (p : RParams) (bufs : List (String × Option Chunk)) (draws : ℕ → ℝ) (m : DecMem) (k : ℕ) (c : Chunk) (pm : ℝ) : ℝ :=
  (p.weights.map (fun q => contribution m p.S p.restricted p.only c q.2 ((alook q.1 bufs).getD Option.none))).sum + pm +
    (if p.noise = 0 then 0 else draws k)

/-- No candidate gets more than `x` in addition to its base level. -/
def HelpAtMost (H : PyHash) (p : RParams) (req : Chunk) (bufs : List (String × Option Chunk)) (draws : ℕ → ℝ) (m : DecMem) (x : ℝ) : Prop :=
  ∀ k c l pm, m.data[k]? = some (c, l) → Fits H p req c pm → Help p bufs draws m k c pm ≤ x

/-- The modeller has not given an activation to any chunk. -/
def NoneGiven (H : PyHash) (m : DecMem) : Prop := ∀ q ∈ m.data, cdLook H q.1 m.act = Option.none

end Verif.Spec
