import Verif.Spec.Simulation
import Verif.Spec.Machine
/-! # Whom reports are attributed to -/
namespace Verif.Spec
open Verif

/-- Who tells things like this. -/
inductive Teller where
  | rules
  | environment
  | buffer
deriving DecidableEq

/-- Conflict resolution, selection, firing and compilation are told by the procedural system, changes of the screen by the environment,
everything else by modules. -/
def teller : Act → Teller
  | .conflict => .rules
  | .selected _ => .rules
  | .stopped _ => .rules
  | .compiled _ _ => .rules
  | .fired _ => .rules
  | .noRule => .rules
  | .envStarting => .environment
  | .envPrinted => .environment
  | _ => .buffer

/-- The report is attributed to the one that tells things like this: for modules, to one of these buffers. -/
def Credited (buffers : List String) (e : Ev) : Prop :=
  match teller e.act with
  | .rules => e.proc = "PROCEDURAL"
  | .environment => e.proc = "ENVIRONMENT"
  | .buffer => e.proc ∈ buffers

instance (buffers : List String) (e : Ev) : Decidable (Credited buffers e) := by unfold Credited; split <;> infer_instance

/-- The kind of buffer that tells things like this, where there is only one. -/
def kindFor : Act → Option BufClass
  | .created _ => some .goal
  | .startRetrieval => some .decmem
  | .retrieved _ => some .decmem
  | .encodedLoc _ => some .visualLocation
  | .autoLoc _ => some .visualLocation
  | .encoded _ => some .visual
  | .autoObj _ => some .visual
  | .stoppedAuto => some .visual
  | .shiftStarted => some .visual
  | .shiftPrepared => some .visual
  | .shiftComplete _ => some .visual
  | .command _ => some .motor
  | .prepared => some .motor
  | .initiated => some .motor
  | .pressed _ => some .motor
  | .finished => some .motor
  | _ => Option.none

/-- The report is attributed to a buffer of the right kind. -/
def Befits (kinds : List (String × BufClass)) (e : Ev) : Prop := ∀ c, kindFor e.act = some c → (e.proc, c) ∈ kinds

/-- The names of the buffers, with their kinds. -/
def kindsOf (w : Mach) : List (String × BufClass) := w.bufs.map (fun p => (p.1, p.2.cls))

/-- The kind of buffer that a process works for, where there is only one. -/
def workKind : Desc → Option BufClass
  | .autoSearch _ _ _ => some .visualLocation
  | .autoBuffer _ _ _ => some .visual
  | .visualContinue _ _ _ _ _ _ => some .visual
  | .motorContinue _ _ _ _ => some .motor
  | _ => Option.none

/-- The process works for a buffer, of the right kind. -/
def Suits (kinds : List (String × BufClass)) (d : Desc) : Prop := ∃ c, (worksFor d, c) ∈ kinds ∧ ∀ k, workKind d = some k → k = c

end Verif.Spec
