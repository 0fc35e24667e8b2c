import Verif.Lemmas.SimReach
import Verif.Lemmas.ExMachine
import Verif.Props.Press
/-! # Concrete simulations for examples -/
namespace Verif
open Verif.Props

/-- Up to `n` steps. -/
noncomputable def stepsOf (C : Cfg) : ℕ → Sim → Stepped
  | 0, s => .ok s
  | n + 1, s => match s.step C with
    | .ok s' => stepsOf C n s'
    | x => x

/-- Kinds of reports. -/
inductive Kind
  | conflict | selected | stopped | fired | noRule | compiled | command | prepared | initiated | pressed | finished | starting | printed | other
deriving DecidableEq

/-- The kind of a report. -/
def Act.kind : Act → Kind
  | .conflict => .conflict
  | .selected _ => .selected
  | .stopped _ => .stopped
  | .compiled _ _ => .compiled
  | .fired _ => .fired
  | .noRule => .noRule
  | .command _ => .command
  | .prepared => .prepared
  | .initiated => .initiated
  | .pressed _ => .pressed
  | .finished => .finished
  | .envStarting => .starting
  | .envPrinted => .printed
  | _ => .other

/-- What has been reported. -/
def Stepped.kinds : Stepped → List Kind
  | .ok s => s.trace.map (·.2.act.kind)
  | .raised s _ => s.trace.map (·.2.act.kind)
  | .stopped s => s.trace.map (·.2.act.kind)
  | .empty => []

/-- Which exception was raised. -/
def Stepped.error : Stepped → Option PyErr
  | .raised _ x => some x
  | _ => Option.none

/-- Whether the run was stopped. -/
def Stepped.isStopped : Stepped → Bool
  | .stopped _ => true
  | _ => false

theorem stepsOf_succ (C : Cfg) (n : ℕ) (s : Sim) : stepsOf C (n + 1) s = match s.step C with
    | .ok s' => stepsOf C n s'
    | x => x := rfl

theorem stepsOf_ok {C : Cfg} {w : Mach} {args : Option EnvArgs} {t : ℚ} {n : ℕ} {s s' : Sim} (h : Reachable C w args t s) (he : stepsOf C n s = .ok s') :
    Reachable C w args t s' := by
  induction n generalizing s with
  | zero => cases he; exact h
  | succ n ih =>
    rw [stepsOf_succ] at he
    cases hs : s.step C with
    | ok s1 => rw [hs] at he; exact ih (h.step hs) he
    | stopped s1 => rw [hs] at he; cases he
    | raised s1 x => rw [hs] at he; cases he
    | empty => rw [hs] at he; cases he

theorem stepsOf_runsOn {C : Cfg} {x : PyErr} {n : ℕ} {s s' : Sim} (he : stepsOf C n s = .raised s' x) : RunsOn C s s' (.error x) := by
  induction n generalizing s with
  | zero => cases he
  | succ n ih =>
    rw [stepsOf_succ] at he
    cases hs : s.step C with
    | ok s1 => rw [hs] at he; exact .more hs (ih he)
    | stopped s1 => rw [hs] at he; cases he
    | raised s1 y => rw [hs] at he; cases he; exact .raised hs
    | empty => rw [hs] at he; cases he

theorem stepsOf_stopped {C : Cfg} {n : ℕ} {s s' : Sim} (he : stepsOf C n s = .stopped s') : RunsOn C s s' (.ok ()) := by
  induction n generalizing s with
  | zero => cases he
  | succ n ih =>
    rw [stepsOf_succ] at he
    cases hs : s.step C with
    | ok s1 => rw [hs] at he; exact .more hs (ih he)
    | stopped s1 => rw [hs] at he; cases he; exact .stopped hs
    | raised s1 y => rw [hs] at he; cases he
    | empty => rw [hs] at he; cases he

/-- A call of `run` that takes less than `n` steps and raises nothing. -/
noncomputable def runOf (C : Cfg) (n : ℕ) (s : Sim) (t : ℚ) : Option Sim :=
  match s.setStop t with
  | (s1, .ok _) => match stepsOf C n s1 with
    | .stopped s2 => match compileAtEnd C s2 with
      | (s3, .ok _) => some s3
      | _ => Option.none
    | _ => Option.none
  | _ => Option.none

theorem runOf_call {C : Cfg} {n : ℕ} {s s' : Sim} {t : ℚ} (h : runOf C n s t = some s') : RunCall C s t s' (.ok ()) := by
  unfold runOf at h
  split at h
  · rename_i s1 _ h1
    split at h
    · rename_i s2 h2
      split at h
      · rename_i s3 _ h3
        cases h
        exact .ended h1 (stepsOf_stopped h2) h3
      · cases h
    · cases h
  · cases h

theorem kinds_ok {x : Stepped} {l : List Kind} (h : x.kinds = l) (hx : x.error = Option.none) (hl : l ≠ []) (hs : x.isStopped = false) :
    ∃ s, x = .ok s ∧ s.trace.map (·.2.act.kind) = l := by
  cases x with
  | ok s => exact ⟨s, rfl, h⟩
  | stopped s => cases hs
  | raised s x => cases hx
  | empty => exact absurd h.symm hl

/-- A concrete hash function. -/
def exHash : PyHash :=
  ⟨0, fun s => (s.toList.foldl (fun n c => n * 1114112 + c.toNat + 1) 0 : ℕ) * 3 + 1, fun l => (l.length : ℕ) * 3 + 2, id, fun _ => List.Perm.refl _⟩

/-- The rule `?manual> state free ==> +manual> press k`. -/
def exPressRule (k : String) : CRule :=
  ⟨⟨.ok [(⟨'?', "manual"⟩, .dict [("state", "free")])], .ok [(⟨'+', "manual"⟩, .chunk (exPress k))]⟩, 0, Option.none⟩

/-- A model that presses A whenever it can. -/
def exPresser : Mach :=
  { exMach exManualReg [("manual", exBuf .motor)] with
    rules := [("press", exPressRule "a")], ordered := ["press"], env := some ⟨0, (0, 0), [], [], [], Option.none, Option.none⟩ }

/-- The environment shows one stimulus for 100 ms or until A is pressed. -/
def exEnvArgs : Option EnvArgs := some ⟨.list [.text "x"], .list [.many ["a"]], .single (1 / 10), 0⟩

/-- The configuration. -/
noncomputable abbrev exC : Cfg := exCfg (exPy exHash)

/-- The simulation. -/
noncomputable def exSim : Sim := Sim.init exPresser exEnvArgs 0

/-- What is reported in the first 100 steps. -/
theorem exSim_kinds : (stepsOf exC 100 exSim).kinds =
    [.conflict, .starting, .selected, .fired, .command, .conflict, .noRule, .printed, .conflict, .noRule, .prepared, .conflict, .noRule, .initiated,
     .conflict, .noRule, .pressed, .conflict, .noRule, .finished, .conflict, .selected, .fired, .command] := by
  decide +kernel

end Verif
