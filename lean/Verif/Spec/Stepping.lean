import Verif.Model.Machine
import Mathlib.Data.List.Chain
/-! # What it means to step through a simulation -/
namespace Verif.Spec

/-- An equality of events: they are tuples of a time, a name and a text. -/
structure Equates (same : Ev → Ev → Prop) : Prop where
  refl : ∀ e, same e e
  symm : ∀ e e', same e e' → same e' e
  trans : ∀ e e' e'', same e e' → same e' e'' → same e e''
  time : ∀ e e', same e e' → e.time = e'.time
  proc : ∀ e e', same e e' → e.proc = e'.proc

/-- No event is reported twice in a row. -/
def NoRepeats (same : Ev → Ev → Prop) (l : List (ℚ × Ev)) : Prop := l.IsChain (fun a b => ¬ same a.2 b.2)

end Verif.Spec
