import Verif.Spec.Machine
/-! # Specification of modules at rest -/
namespace Verif.Spec
open Verif

/-- Nothing but the overall state of the buffer may say that something is going on. -/
structure AtRest (b : Buf) : Prop where
  preparation : b.preparation = .free
  processor : b.processor = .free
  execution : b.execution = .free
  autoattending : b.autoattending = .free

/-- The event reports what a search has found: a retrieval, or the search for a visual location. -/
def Outcome (e : Verif.Ev) (r : Option Chunk) : Prop := e.act = .retrieved r ∨ e.act = .encodedLoc r

/-- It is reported that nothing was found. -/
def FoundNothing (evs : List Verif.Ev) : Prop := ∃ e ∈ evs, Outcome e Option.none

/-- It is reported that nothing was found, or a chunk without slots, which Python takes for false. -/
def FoundFalse (evs : List Verif.Ev) : Prop := ∃ e ∈ evs, Outcome e Option.none ∨ ∃ c, Outcome e (some c) ∧ c.slots = []

end Verif.Spec
