import Verif.Model.ActrModel
/-! # Specification: the buffers of a model (property C89) -/
namespace Verif.Spec
open Verif

/-- `i` is the goal buffer set last: the one made by the last `set_goal` (buffers have the numbers of their creation), or the initial one. -/
inductive LastGoal (env : Bool) : List ModelOp → ℕ → Prop
  | initial {ops : List ModelOp} : (∀ n, .setGoal n ∉ ops) → LastGoal env ops 0
  | set {before after : List ModelOp} (n : String) : (∀ n, .setGoal n ∉ after) → LastGoal env (before ++ .setGoal n :: after) ((ActrModel.init env).run before).objs.length

/-- Likewise for retrieval buffers. -/
inductive LastRetrieval (env : Bool) : List ModelOp → ℕ → Prop
  | initial {ops : List ModelOp} : (∀ n, .setRetrieval n ∉ ops) → LastRetrieval env ops 1
  | set {before after : List ModelOp} (n : String) : (∀ n, .setRetrieval n ∉ after) →
      LastRetrieval env (before ++ .setRetrieval n :: after) ((ActrModel.init env).run before).objs.length

/-- The operation sets or announces a buffer of the name `n`. -/
inductive Claims (n : String) : ModelOp → Prop
  | goal : Claims n (.setGoal n)
  | retrieval : Claims n (.setRetrieval n)
  | visual (l : String) (h : Option ℕ) : Claims n (.visualBuffer n l h)
  | location (v : String) (h : Option ℕ) : Claims n (.visualBuffer v n h)

/-- The names that simulations use for buffers of their own. -/
def Reserved (n : String) : Prop := n = "manual" ∨ n = "visual" ∨ n = "visual_location"

/-- In rules the name `n` stands for the buffer `i`, which is of the class `cls`. -/
def StandsFor (m : ActrModel) (n : String) (i : ℕ) (cls : BClass) : Prop := alook n m.buffers = some i ∧ ∃ d, m.objs[i]? = some ⟨cls, d⟩

end Verif.Spec
