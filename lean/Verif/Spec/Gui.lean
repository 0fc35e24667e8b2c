import Verif.Model.Gui
import Mathlib.Data.List.Destutter
/-!
# What is printed
-/
namespace Verif.Spec
open Verif Classical

/-- What is printed without a window (simulation.py:210-217): all events that are reported, except those of the environment. -/
def printedWithout (trace : List (ℚ × Ev)) : List Ev := (trace.map (·.2)).filter (fun e => e.proc ≠ "ENVIRONMENT")

/-- The same, where of several events in a row that are the same only the first one is printed. -/
noncomputable def printedOnce (same : Ev → Ev → Prop) (trace : List (ℚ × Ev)) : List Ev :=
  ((trace.map (·.2)).destutter (fun a b => ¬ same a b)).filter (fun e => e.proc ≠ "ENVIRONMENT")

end Verif.Spec
