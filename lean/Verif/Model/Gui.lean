import Verif.Model.Stepping
/-!
# The thread of a simulation with a window

Models `Simulation.__workerThread1__` (simulation.py:334-360) as far as the simulation and the trace are concerned: what is printed and how
long the thread sleeps. What is sent to the window (lines 355-360) and the window itself are not modelled.
-/
namespace Verif
open Classical

/-- The simulation, `__last_event`, `old_time`, what has been printed and the times for which the thread has slept. -/
structure Worker where
  sim : Sim
  last : Option Ev
  oldTime : ℚ
  printed : List Ev
  slept : List ℚ

/-- The thread at its beginning (simulation.py:338-341). -/
def Worker.start (s : Sim) : Worker := ⟨s, Option.none, 0, [], []⟩

/-- Lines 347-354, with `trace = True`. `time.sleep` raises ValueError if its argument is negative, before anything is printed. -/
noncomputable def Worker.look (same : Ev → Ev → Prop) (realtime : Bool) (g : Worker) : Worker × Except PyErr Unit :=
  match g.sim.current with
  | Option.none => (g, .ok ())
  | some e =>
    if ∃ l, g.last = some l ∧ same l e then (g, .ok ())
    else if realtime = true ∧ e.time - g.oldTime < 0 then ({ g with last := some e }, .error .value)
    else ({ g with
      last := some e
      oldTime := e.time
      slept := if realtime then g.slept ++ [e.time - g.oldTime] else g.slept
      printed := if e.proc = "ENVIRONMENT" then g.printed else g.printed ++ [e] }, .ok ())

/-- How a round of the loop ends: the next one follows; nothing is left to happen, so it was the last one; an exception ends the
thread (StopSimulation cannot be raised here, since `run` has not been called). -/
inductive Round where
  | more (g : Worker)
  | over (g : Worker)
  | failed (g : Worker) (x : PyErr)
  | stopped (g : Worker)

/-- One round of the loop (simulation.py:342-354). -/
noncomputable def Worker.round (C : Cfg) (same : Ev → Ev → Prop) (realtime : Bool) (g : Worker) : Round :=
  match g.sim.step C with
  | .ok s => match ({ g with sim := s } : Worker).look same realtime with
    | (g', .ok _) => .more g'
    | (g', .error x) => .failed g' x
  | .empty => match g.look same realtime with
    | (g', .ok _) => .over g'
    | (g', .error x) => .failed g' x
  | .raised s x => .failed { g with sim := s } x
  | .stopped s => .stopped { g with sim := s }

/-- The states of the thread between rounds. -/
inductive Works (C : Cfg) (same : Ev → Ev → Prop) (realtime : Bool) (s : Sim) : Worker → Prop
  | start : Works C same realtime s (Worker.start s)
  | round {g g' : Worker} : Works C same realtime s g → g.round C same realtime = .more g' → Works C same realtime s g'

end Verif
