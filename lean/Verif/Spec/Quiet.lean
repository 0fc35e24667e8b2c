import Verif.Spec.Requests
import Verif.Spec.Outcome
/-! # Specification: when nothing is left to happen (property C84) -/
namespace Verif.Spec
open Verif

/-- The process waits for an event that would activate it, and the event has not been triggered: it is the process of the rules or of a
module. -/
def AwaitsCall (s : Sim) (p : ℕ) : Prop :=
  (s.points p = some .procIdle ∨ ∃ n, s.points p = some (.extraIdle n)) ∧ (s.events (s.target p)).value = Option.none

/-- Nothing but the clock and the rules is different: not the reports, not the buffers and memories, not the requests, not the processes and
what they wait for. -/
structure OnlyClock (s s' : Sim) : Prop where
  trace : s'.trace = s.trace
  bufs : s'.w.bufs = s.w.bufs
  mems : s'.w.mems = s.w.mems
  requests : s'.startedList = s.startedList
  points : s'.points = s.points
  target : s'.target = s.target

end Verif.Spec
