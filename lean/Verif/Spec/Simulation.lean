import Verif.Model.Simulation
/-! # Specification of simulations -/
namespace Verif.Spec
open Verif

/-- A multiple of 0.1 ms. -/
def OnGrid (q : ℚ) : Prop := ∃ k : ℤ, q = k / 10000

/-- Every event is reported when the clock shows its time, times do not decrease, and are multiples of 0.1 ms. A report is the time on
the clock with the event. -/
def InTime (reports : List (ℚ × Verif.Ev)) : Prop :=
  (∀ x ∈ reports, x.1 = x.2.time ∧ OnGrid x.2.time) ∧ reports.Pairwise (fun a b => a.2.time ≤ b.2.time)

/-- The reports that rules are being selected and fired. -/
def Cyclic : Act → Prop
  | .conflict => True
  | .selected _ => True
  | .stopped _ => True
  | .compiled _ _ => True
  | .fired _ => True
  | .noRule => True
  | _ => False

instance : DecidablePred Cyclic := fun a => by cases a <;> unfold Cyclic <;> infer_instance

/-- One cycle. The report of a compilation comes before the rule fires. -/
inductive RuleCycle : List Act → Prop
  | nothing : RuleCycle [.conflict, .noRule]
  | fired (n : String) : RuleCycle [.conflict, .selected n, .fired n]
  | compiled (n : String) (re : Bool) (m : String) : RuleCycle [.conflict, .selected n, .compiled re m, .fired n]
  | stopped (n : String) : RuleCycle [.conflict, .selected n, .stopped n]

/-- Complete cycles, and the beginning of another one. -/
def Cycles (l : List Act) : Prop :=
  ∃ (done : List (List Act)) (rest c : List Act), l = done.flatten ++ rest ∧ (∀ x ∈ done, RuleCycle x) ∧ RuleCycle c ∧ rest <+: c ∧ rest ≠ c

/-- What was reported about rules, in order. -/
def ruleReports (reports : List (ℚ × Verif.Ev)) : List Act := (reports.map (fun x => x.2.act)).filter (fun a => Cyclic a)

/-- One cycle with its times: everything up to the selection of a rule happens at one time, and what becomes of the rule, later, at a time
related to that one by `R`. -/
inductive TimedCycle (R : ℚ → ℚ → Prop) : List (ℚ × Act) → Prop
  | nothing (t : ℚ) : TimedCycle R [(t, .conflict), (t, .noRule)]
  | fired {t u : ℚ} (n : String) : R t u → TimedCycle R [(t, .conflict), (t, .selected n), (u, .fired n)]
  | compiled {t u : ℚ} (n : String) (re : Bool) (m : String) : R t u → TimedCycle R [(t, .conflict), (t, .selected n), (u, .compiled re m), (u, .fired n)]
  | stopped {t u : ℚ} (n : String) : R t u → TimedCycle R [(t, .conflict), (t, .selected n), (u, .stopped n)]

/-- Complete cycles, and the beginning of another one. -/
def TimedCycles (R : ℚ → ℚ → Prop) (l : List (ℚ × Act)) : Prop :=
  ∃ (done : List (List (ℚ × Act))) (rest c : List (ℚ × Act)),
    l = done.flatten ++ rest ∧ (∀ x ∈ done, TimedCycle R x) ∧ TimedCycle R c ∧ rest <+: c ∧ rest ≠ c

/-- What was reported about rules, in order, with the times of the reports. -/
def timedReports (reports : List (ℚ × Verif.Ev)) : List (ℚ × Act) := (reports.map (fun x => (x.2.time, x.2.act))).filter (fun a => Cyclic a.2)

/-- Calls of `run` with the given times, one after the other, without exceptions. -/
inductive RunAll (C : Cfg) : Sim → List ℚ → Sim → Prop
  | none (s : Sim) : RunAll C s [] s
  | more {s s1 s2 : Sim} {t : ℚ} {ts : List ℚ} : RunCall C s t s1 (.ok ()) → RunAll C s1 ts s2 → RunAll C s (t :: ts) s2

/-- What can come after a state: steps, also in calls of `run`, and compilation of rules. -/
inductive Later (C : Cfg) (s : Sim) : Sim → Prop
  | refl : Later C s s
  | stop {s1 s2 : Sim} {q : ℚ} {r : Except PyErr Unit} : Later C s s1 → s1.setStop q = (s2, r) → Later C s s2
  | step {s1 s2 : Sim} : Later C s s1 → s1.step C = .ok s2 → Later C s s2
  | stopped {s1 s2 : Sim} : Later C s s1 → s1.step C = .stopped s2 → Later C s s2
  | raised {s1 s2 : Sim} {x : PyErr} : Later C s s1 → s1.step C = .raised s2 x → Later C s s2
  | compile {s1 s2 : Sim} {r : Except PyErr Unit} : Later C s s1 → compileAtEnd C s1 = (s2, r) → Later C s s2

/-- The last motor command reported for a buffer. -/
def LastCommand (name : String) (reports : List (ℚ × Verif.Ev)) : Option Chunk :=
  reports.foldl (fun o x => match x.2.act with
    | .command c => if x.2.proc = name then some c else o
    | _ => o) Option.none

end Verif.Spec
