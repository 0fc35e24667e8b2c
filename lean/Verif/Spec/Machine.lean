import Verif.Model.Procedural
import Verif.Spec.Rounding
/-! # Specification of processes -/
namespace Verif.Spec
open Verif

/-- Nobody else touches the buffer. -/
def Alone (name : String) (w w' : Mach) : Prop := w'.buf name = w.buf name

/-- A process is carried out to its end without being interrupted and without raising: it reports the events `evs`, and when it leaves
a continuation that is carried out instead; `w'` is the state at the end. Between two steps others change the state as `Rel` allows. -/
inductive Carried (C : Cfg) (Rel : Mach → Mach → Prop) : Out Mach YV Unit → List Verif.Ev → Mach → Prop
  | ret {w : Mach} : Carried C Rel (.ret w ()) [] w
  | ev {w w1 w' : Mach} {e : Verif.Ev} {k : Mach → Out Mach YV Unit} {evs : List Verif.Ev} :
      Rel w w1 → Carried C Rel (k w1) evs w' → Carried C Rel (.yield w (.ev e) k) (e :: evs) w'
  | cont {w w1 w' : Mach} {d : Desc} {k : Mach → Out Mach YV Unit} {evs : List Verif.Ev} :
      Rel w w1 → Carried C Rel (d.run C w1) evs w' → Carried C Rel (.yield w (.cont d) k) evs w'

/-- What a process that works for the buffer `n` leaves alone: all other buffers, the class of its own, and what belongs to the
procedural module. -/
structure Confined (n : String) (w w' : Mach) : Prop where
  others : ∀ m, m ≠ n → w'.buf m = w.buf m
  shape : w'.bufs.map (fun p => (p.1, p.2.cls)) = w.bufs.map (fun p => (p.1, p.2.cls))
  bv : w'.bv = w.bv
  rules : w'.rules = w.rules
  ordered : w'.ordered = w.ordered
  used : w'.used = w.used
  usedName : w'.usedName = w.usedName
  lastRule : w'.lastRule = w.lastRule
  lastSlots : w'.lastSlots = w.lastSlots
  compile : w'.compile = w.compile
  procs : w'.procs = w.procs
  nextId : w'.nextId = w.nextId
  dms : w'.dms = w.dms

/-- The buffer a process works for. -/
def worksFor : Desc → String
  | .retrieveorset n _ _ _ => n
  | .modifyRequest n _ _ _ => n
  | .clear n _ _ => n
  | .autoSearch n _ _ => n
  | .autoBuffer n _ _ => n
  | .visualContinue n _ _ _ _ _ => n
  | .motorContinue n _ _ _ => n

/-- The event is reported for time `q`, to four decimals. -/
def AtTime (q : ℚ) (e : Verif.Ev) : Prop := IsRounded q e.time

end Verif.Spec
