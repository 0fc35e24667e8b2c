import Verif.Spec.Learning
import Verif.Spec.Simulation
/-! # Specification of where utilities settle -/
namespace Verif.Spec
open Verif

/-- The cycle selected rule `n`. -/
def CycleEnd.selects (n : String) : CycleEnd → Bool
  | .nothing => false
  | .stopped m => m == n
  | .fired m => m == n

/-- The rule that fired. -/
def CycleEnd.firing : CycleEnd → Option String
  | .fired m => some m
  | _ => Option.none

/-- The delayed rewards for rule `n` in a history: one for every time `n` was selected and a reward came later, namely that reward less
the time that went by. The rewards of rules are `reward`, rules fire after `delay`, and `pending` are the times at which `n` was
selected earlier and that are not rewarded yet. -/
def delayedRewards (reward : String → Option ℚ) (delay : ℚ) (n : String) : List (ℚ × CycleEnd) → List ℚ → List ℚ
  | [], _ => []
  | (s, o) :: h, pending =>
    let uses := if o.selects n then pending ++ [s] else pending
    match o.firing.bind reward with
    | some r => uses.map (fun t => r - (s + delay - t)) ++ delayedRewards reward delay n h []
    | .none => delayedRewards reward delay n h uses

/-- Steps towards each of the values in turn. -/
inductive Drawn (alpha : ℚ) : List ℚ → ℚ → ℚ → Prop
  | nil (u : ℚ) : Drawn alpha [] u u
  | cons {e : ℚ} {l : List ℚ} {u v w : ℚ} : IsRounded ((1 - alpha) * u + alpha * e) v → Drawn alpha l v w → Drawn alpha (e :: l) u w

/-- All utilities are between the two values. -/
def Ledger.Within (lo hi : ℚ) (b : Ledger) : Prop := ∀ n u, b.utility n = some u → lo ≤ u ∧ u ≤ hi

end Verif.Spec
