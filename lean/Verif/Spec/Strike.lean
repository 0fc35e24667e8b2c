import Verif.Spec.Errors
import Verif.Spec.Repertoire
/-! # Specification: interrupted processes (property C63) -/
namespace Verif.Spec
open Verif

/-- `d` is the first request for the module `name` in the list `l`, and `l'` is the list without it. -/
def TakesFirst (name : String) (d : Desc) (l l' : List PItem) : Prop :=
  ∃ i l1 l2, l = l1 ++ .gen name i d :: l2 ∧ l' = l1 ++ l2 ∧ ∀ j d', PItem.gen name j d' ∉ l1

/-- The module `name` works on a request. -/
def WorksFor (s : Sim) (p : ℕ) (name : String) : Prop := (∃ pro, s.points p = some (.extraMain name pro)) ∨ s.points p = some (.extraCont name)

/-- The module `name` has nothing to do, and it has been called to do something. -/
def CalledUp (s : Sim) (p : ℕ) (name : String) : Prop := s.points p = some (.extraIdle name) ∧ (s.events (s.target p)).value.isSome

/-- The process carries out a request for a module, or waits for the next event of the environment. -/
def Serves (s : Sim) (p : ℕ) : Prop :=
  (∃ n g, s.points p = some (.localNew n g)) ∨ (∃ n e k, s.points p = some (.localWait n e k)) ∨ (∃ e, s.points p = some (.envProcNew e)) ∨ ∃ e, s.points p = some (.envProc e)

/-- An interruption of the process is in the schedule. -/
def ToInterrupt (s : Sim) (p : ℕ) : Prop := ∃ en ∈ s.queue, ∃ l, (s.events en.ev).callbacks = some l ∧ .interrupt p ∈ l

/-- What is given to the simulation does not raise the exception `x` by itself: methods that rules execute, the times of eye
movements, and the functions of rules. -/
structure NoneOfItsOwn (x : PyErr) (C : Cfg) (w : Mach) : Prop where
  exec : ∀ c b, (C.exec c b).2 ≠ .error x
  emma : ∀ k p q d, C.emma k p q d ≠ .error x
  lhs : ∀ n r, HasRule w n r → r.body.lhs ≠ .error x
  rhs : ∀ n r, HasRule w n r → r.body.rhs ≠ .error x

/-- Before the simulation got to `s`, the process `p` of a module was interrupted that had been called but had not begun to work. -/
def WasStruck (C : Cfg) (w : Mach) (args : Option EnvArgs) (t : ℚ) (s : Sim) (p : ℕ) : Prop :=
  ∃ s0 s1 n, Reachable C w args t s0 ∧ Interrupts s0 p ∧ CalledUp s0 p n ∧ Stepped.leads (s0.step C) s1 ∧ GoesOn C s1 s

end Verif.Spec
