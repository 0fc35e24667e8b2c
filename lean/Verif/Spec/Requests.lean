import Verif.Spec.Strike
/-! # Specification: requests for modules (property C64) -/
namespace Verif.Spec
open Verif

/-- The requests for a module in a list of processes, in their order: the key of the yielded process in the list, and what it does. -/
def requestsFor (name : String) : List PItem → List (ℕ × Desc)
  | [] => []
  | .procedural :: r => requestsFor name r
  | .gen m i d :: r => if m = name then (i, d) :: requestsFor name r else requestsFor name r

/-- Between `s` and `s'` the module takes up a request: its process now waits for a process which was not there before and which carries
out the request. -/
def TakesUp (C : Cfg) (s s' : Sim) (name : String) (r : ℕ × Desc) : Prop :=
  ∃ p pro, alook name s.extra = some p ∧ s'.points p = some (.extraMain name pro) ∧ s.points pro = Option.none ∧ s'.points pro = some (.localNew name (r.2.run C))

/-- The requests for the module stay in line when the list `l` becomes `l'`: either new ones come last, or the module takes up the first
one. -/
def InLine (C : Cfg) (s s' : Sim) (name : String) (l l' : List PItem) : Prop :=
  requestsFor name l <+: requestsFor name l' ∨ ∃ r, requestsFor name l = r :: requestsFor name l' ∧ TakesUp C s s' name r

end Verif.Spec
