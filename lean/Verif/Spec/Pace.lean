import Verif.Spec.Simulation
/-! # Specification: the pace of rules -/
namespace Verif.Spec
open Verif

/-- When rules fired, in order. -/
def firingTimes (reports : List (ℚ × Verif.Ev)) : List ℚ := reports.filterMap (fun x => match x.2.act with | .fired _ => some x.1 | _ => Option.none)

/-- When rules were selected, in order. -/
def selectionTimes (reports : List (ℚ × Verif.Ev)) : List ℚ := reports.filterMap (fun x => match x.2.act with | .selected _ => some x.1 | _ => Option.none)

/-- Each time lies at least `g` after all the earlier ones. -/
def SpacedBy (g : ℚ) (times : List ℚ) : Prop := times.Pairwise (fun a b => a + g ≤ b)

end Verif.Spec
