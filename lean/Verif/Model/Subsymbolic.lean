import Verif.Model.Err
import Mathlib.Analysis.SpecialFunctions.Pow.Real
import Mathlib.Analysis.SpecialFunctions.Log.Basic
/-!
# Base-level learning, noise and latency

Models `baselevel_learning`, `calculate_instantaneous_noise`, `retrieval_success` and `retrieval_latency`
(utilities.py:422-466, 564-574). Activations are real numbers, times are rationals; overflow is not modelled.
-/
namespace Verif
open Classical

/-- Does `(now - t) ** (-d)` give a RuntimeWarning? Zero to a negative power does ("divide by zero"), a negative number to a
power that is not an integer does ("invalid value"). Line 430 turns the warning into an exception. -/
def powWarns (now : ℚ) (d : ℝ) (t : ℚ) : Prop := (t = now ∧ 0 < d) ∨ (now < t ∧ ¬ ∃ n : ℤ, d = n)

/-- `math.log(np.sum((now - times) ** (-d)))` (utilities.py:433,438). -/
noncomputable def logSum (now : ℚ) (d : ℝ) (times : List ℚ) : Except PyErr ℝ :=
  if ∃ t ∈ times, powWarns now d t then .error .runtimeWarning
  else
    let s := (times.map (fun t : ℚ => ((now : ℝ) - (t : ℝ)) ^ (-d))).sum
    if 0 < s then .ok (Real.log s) else .error .value

/-- `np.delete(times, times.argmax())`: the first largest time is left out. -/
def dropMax (times : List ℚ) : List ℚ :=
  match times.max? with
  | some m => times.erase m
  | Option.none => times

/-- Lines 432-438: the value of `B`, if it is assigned. -/
noncomputable def bllPlain (now : ℚ) (d : ℝ) (times : List ℚ) : Except PyErr (Option ℝ) :=
  match logSum now d times with
  | .ok b => .ok (some b)
  | .error .runtimeWarning =>
    if dropMax times = [] then .ok Option.none
    else match logSum now d (dropMax times) with
      | .ok b => .ok (some b)
      | .error e => .error e
  | .error e => .error e

/-- Lines 440-446. `math.log` raises ValueError (never a RuntimeWarning) unless its argument is positive, so lines 443-446
are never reached. -/
noncomputable def bllOptimized (now : ℚ) (d : ℝ) (times : List ℚ) : Except PyErr (Option ℝ) :=
  if d = 1 then .error .zeroDivision
  else if (times.length : ℝ) / (1 - d) ≤ 0 then .error .value
  else match times.max? with
    | Option.none => .error .value
    | some m => if now ≤ m then .error .value
      else .ok (some (Real.log (times.length / (1 - d)) - d * Real.log ((now : ℝ) - (m : ℝ))))

/-- `baselevel_learning(now, times, bll, decay, activation, optimized_learning)` (utilities.py:422-456). A variable `B` that
is not assigned gives an UnboundLocalError, which lines 451-454 catch (it is a NameError). -/
noncomputable def baselevel (now : ℚ) (times : List ℚ) (bll : Bool) (d : ℝ) (activation : Option ℝ) (optimized : Bool) :
    Except PyErr ℝ :=
  let b : Except PyErr (Option ℝ) :=
    if bll then
      if times = [] then .ok Option.none
      else if optimized then bllOptimized now d times else bllPlain now d times
    else .ok (some 0)
  match b with
  | .error e => .error e
  | .ok b => match b, activation with
    | some b, some a => .ok (Real.log (Real.exp b + Real.exp a))
    | Option.none, some a => .ok a
    | some b, Option.none => .ok b
    | Option.none, Option.none => .error .unboundLocal

/-- `calculate_instantaneous_noise` (utilities.py:458-466) with the number `draw` drawn from the logistic distribution. -/
noncomputable def instNoise (s draw : ℝ) : Except PyErr ℝ :=
  if s < 0 then .error .assertion else if s = 0 then .ok 0 else .ok draw

/-- `retrieval_success` (utilities.py:564-568). -/
noncomputable def retrievalSuccess (a threshold : ℝ) : Bool := decide (threshold ≤ a)

/-- `retrieval_latency` (utilities.py:570-574). -/
noncomputable def retrievalLatency (a F f : ℝ) : ℝ := F * Real.exp (-a * f)

end Verif
