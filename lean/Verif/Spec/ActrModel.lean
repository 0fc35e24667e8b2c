import Verif.Model.ActrModel
/-! # Specification of the model object -/
namespace Verif.Spec
open Verif

/-- The documented parameters (docstring of `ACTRModel`, model.py:13-43) with their default values. -/
inductive Documented : String → ParamVal → Prop
  | subsymbolic : Documented "subsymbolic" (.bool false)
  | ruleFiring : Documented "rule_firing" (.num (1 / 20))
  | latencyFactor : Documented "latency_factor" (.num (1 / 10))
  | latencyExponent : Documented "latency_exponent" (.num 1)
  | decay : Documented "decay" (.num (1 / 2))
  | bll : Documented "baselevel_learning" (.bool true)
  | optimized : Documented "optimized_learning" (.bool false)
  | noise : Documented "instantaneous_noise" (.num 0)
  | threshold : Documented "retrieval_threshold" (.num 0)
  | spreading : Documented "buffer_spreading_activation" .emptyDict
  | restricted : Documented "spreading_activation_restricted" (.bool false)
  | strength : Documented "strength_of_association" (.num 0)
  | onlyChunks : Documented "association_only_from_chunks" (.bool true)
  | partialMatching : Documented "partial_matching" (.bool false)
  | penalty : Documented "mismatch_penalty" (.num 1)
  | trace : Documented "activation_trace" (.bool false)
  | utilityNoise : Documented "utility_noise" (.num 0)
  | utilityLearning : Documented "utility_learning" (.bool false)
  | utilityAlpha : Documented "utility_alpha" (.num (1 / 5))
  | motorPrepared : Documented "motor_prepared" (.bool false)
  | strictHarvesting : Documented "strict_harvesting" (.bool false)
  | compilation : Documented "production_compilation" (.bool false)
  | visualSearch : Documented "automatic_visual_search" (.bool true)
  | emma : Documented "emma" (.bool true)
  | emmaNoise : Documented "emma_noise" (.bool true)
  | landing : Documented "emma_landing_site_noise" (.bool false)
  | angle : Documented "eye_mvt_angle_parameter" (.num 1)
  | scaling : Documented "eye_mvt_scaling_parameter" (.num (1 / 100))

/-- `d` is the memory set last in the history `ops`: the one returned by the last `set_decmem`, or the initial memory. -/
inductive LastSet (env : Bool) : List ModelOp → ℕ → Prop
  | initial {ops : List ModelOp} : ModelOp.setDecmem ∉ ops → LastSet env ops 0
  | set {before after : List ModelOp} : ModelOp.setDecmem ∉ after →
      LastSet env (before ++ [.setDecmem] ++ after) ((ActrModel.init env).run before).setDecmem.2

/-- The buffer used under the name `n` is of class `cls` and has the memory `d`. -/
def HasBuffer (m : ActrModel) (n : String) (cls : BClass) (d : Option ℕ) : Prop :=
  ∃ i, alook n m.buffers = some i ∧ m.objs[i]? = some ⟨cls, d⟩

end Verif.Spec
