import Verif.Model.Procedural
import Verif.Model.Environment
/-!
# The event loop

The part of the library simpy that simulation.py uses: events, timeouts, processes, interruptions, the condition `a | b`, `step` and
`run(until)`. simpy is not part of the repository; what is modelled here is the documented behaviour of its modules `core` and `events`
(version 4). Processes are the generators of class `Simulation` (simulation.py:99-252); a generator that waits is represented by the
place in the code where it waits and its local variables (`Pt`).
-/
namespace Verif

/-- What processes return and events carry: nothing, a continuation (simulation.py:195), or the list `self.procs` (productions.py:550). -/
inductive SVal where
  | nothing
  | cont (d : Desc)
  | procs

/-- Where a process waits. Numbers are events. `…New` are processes that have not been started. -/
inductive Pt where
  /-- `__procprocessGenerator__` (simulation.py:226-252), at lines 231, 236, 249 (with the number of repetitions left) and 251. -/
  | procNew
  | procFirst
  | procIdle
  | procSpin (n : ℕ)
  | procAgain
  /-- `__extraprocessGenerator__` (simulation.py:151-183), at lines 161, 170 and 181. -/
  | extraNew (name : String)
  | extraIdle (name : String)
  | extraMain (name : String) (pro : ℕ)
  | extraCont (name : String)
  /-- `__localprocess__` (simulation.py:185-208), at line 197, with the generator as it will be resumed. -/
  | localNew (name : String) (g : GenM Unit)
  | localWait (name : String) (e : Ev) (k : Mach → Out Mach YV Unit)
  /-- `__envGenerator__` (simulation.py:99-136), at line 107. -/
  | envNew
  | envWait (pro : ℕ) (k : Mach → Out Mach EnvEvent Unit)
  /-- `__envprocess__` (simulation.py:138-149), at line 143. -/
  | envProcNew (e : Ev)
  | envProc (e : Ev)

/-- The callbacks of events: `Process._resume`, `Interruption._interrupt`, `Condition._check`, `Condition._build_value` (of the condition
`c` on `a` and `b`), and the callback of `run` that stops the simulation. -/
inductive Callback where
  | resume (p : ℕ)
  | interrupt (p : ℕ)
  | check (c : ℕ)
  | build (c a b : ℕ)
  | stop
deriving DecidableEq

/-- An event. `value`: nothing as long as the event is not triggered, the exception if it failed. `callbacks`: nothing if the event has
been processed. -/
structure SEv where
  value : Option (Except PyErr SVal)
  defused : Bool
  callbacks : Option (List Callback)

/-- An entry of the schedule. -/
structure Entry where
  time : ℚ
  urgent : Bool
  ev : ℕ

/-- The arguments given to `environment_process` (environment.py:63). -/
structure EnvArgs where
  stimuli : StimArg
  triggers : TrigArg
  times : EnvTimes
  startTime : ℚ

/-- The state of a simulation. The schedule is kept in the order in which entries are taken: by time, urgent ones first, and otherwise as
they were scheduled (simpy uses a heap of triples with a running number). `events` and `points` are tables: events below `next` exist,
`points p` is where process `p` waits (nothing once it has ended), `target p` the event it waits for. The rest are the attributes of
class `Simulation`: `w` is `__pr` with the buffers and the environment; `interruptibles`, `activate`, `extra` are dictionaries with the
numbers of generator objects, events and processes; `started` is `__procs_started`, nothing when it is the same list as `self.procs`;
`envArgs` is nothing if `environment_process` is None. `trace` is what has been reported so far with the time of the clock; the last of
these is `current_event`. -/
structure Sim where
  now : ℚ
  queue : List Entry
  events : ℕ → SEv
  next : ℕ
  points : ℕ → Option Pt
  target : ℕ → ℕ
  w : Mach
  interruptibles : List (String × ℕ)
  activate : List (String × ℕ)
  extra : List (String × ℕ)
  procActivate : ℕ
  started : Option (List PItem)
  envActivate : ℕ
  envArgs : Option EnvArgs
  trace : List (ℚ × Ev)

/-- Change one element of a table. -/
def fset {A : Type} (f : ℕ → A) (i : ℕ) (a : A) : ℕ → A := fun j => if j = i then a else f j

/-- `a` is taken before a new entry `b`. -/
def Entry.before (a b : Entry) : Bool := decide (a.time < b.time) || (decide (a.time ≤ b.time) && (a.urgent || !b.urgent))

/-- Put a new entry into the schedule. -/
def insertEntry (e : Entry) : List Entry → List Entry
  | [] => [e]
  | x :: r => if x.before e then x :: insertEntry e r else e :: x :: r

/-! ## Code with effects on the simulation -/

/-- Code that changes the simulation and may raise. -/
def SimM (A : Type) := Sim → Sim × Except PyErr A

namespace SimM

/-- `return`. -/
def pure {A : Type} (a : A) : SimM A := fun s => (s, .ok a)

/-- One piece of code after another. -/
def bind {A B : Type} (m : SimM A) (f : A → SimM B) : SimM B := fun s =>
  match m s with
  | (s', .ok a) => f a s'
  | (s', .error e) => (s', .error e)

/-- `raise`. -/
def throw {A : Type} (e : PyErr) : SimM A := fun s => (s, .error e)

/-- Reading. -/
def get {A : Type} (f : Sim → A) : SimM A := fun s => (s, .ok (f s))

/-- Assignments. -/
def set (f : Sim → Sim) : SimM Unit := fun s => (f s, .ok ())

end SimM

instance : Monad SimM where
  pure := SimM.pure
  bind := SimM.bind

/-! ## Events -/

/-- `event.triggered`. -/
def Sim.triggered (s : Sim) (ev : ℕ) : Bool := (s.events ev).value.isSome

/-- `event.processed`. -/
def Sim.processed (s : Sim) (ev : ℕ) : Bool := (s.events ev).callbacks.isNone

/-- A new event. -/
def Sim.alloc (s : Sim) (e : SEv) : Sim := { s with events := fset s.events s.next e, next := s.next + 1 }

/-- `env.schedule(event, priority, delay)`. -/
def Sim.schedule (s : Sim) (ev : ℕ) (urgent : Bool) (delay : ℚ) : Sim := { s with queue := insertEntry ⟨s.now + delay, urgent, ev⟩ s.queue }

/-- Trigger an event. -/
def Sim.trigger (s : Sim) (ev : ℕ) (v : Except PyErr SVal) : Sim :=
  ({ s with events := fset s.events ev { s.events ev with value := some v } } : Sim).schedule ev false 0

/-- `env.event()`. -/
def newEvent : SimM ℕ := fun s => (s.alloc ⟨Option.none, false, some []⟩, .ok s.next)

/-- `event.succeed()`: RuntimeError if the event has been triggered. -/
def succeed (ev : ℕ) : SimM Unit := fun s =>
  if s.triggered ev then (s, .error .runtime) else (s.trigger ev (.ok .nothing), .ok ())

/-- `env.timeout(delay)`: ValueError if the delay is negative. -/
def timeout (delay : ℚ) : SimM ℕ := fun s =>
  if delay < 0 then (s, .error .value)
  else ((s.alloc ⟨some (.ok .nothing), false, some []⟩).schedule s.next false delay, .ok s.next)

/-- `env.process(generator)`: the process is an event itself, and is started by another one, which is urgent. -/
def process (pt : Pt) : SimM ℕ := fun s =>
  let s1 := s.alloc ⟨Option.none, false, some []⟩
  let s2 := (s1.alloc ⟨some (.ok .nothing), false, some [.resume s.next]⟩).schedule s1.next true 0
  ({ s2 with points := fset s2.points s.next (some pt), target := fset s2.target s.next s1.next }, .ok s.next)

/-- `process.interrupt()`: RuntimeError if it has ended. A process does not interrupt itself here. -/
def interruptProcess (p : ℕ) : SimM Unit := fun s =>
  if s.triggered p then (s, .error .runtime)
  else ((s.alloc ⟨some (.error .interrupt), true, some [.interrupt p]⟩).schedule s.next true 0, .ok ())

/-- Add a callback to an event. -/
def Sim.addCallback (s : Sim) (ev : ℕ) (c : Callback) : Sim :=
  { s with events := fset s.events ev { s.events ev with callbacks := (s.events ev).callbacks.map (· ++ [c]) } }

/-- Remove a callback from an event: the first one. -/
def Sim.dropCallback (s : Sim) (ev : ℕ) (c : Callback) : Sim :=
  { s with events := fset s.events ev { s.events ev with callbacks := (s.events ev).callbacks.map (·.erase c) } }

/-- `a | b`: a new event, which succeeds as soon as one of the two does. -/
def anyOf (a b : ℕ) : SimM ℕ := fun s =>
  let c := s.next
  let s1 := s.alloc ⟨Option.none, false, some [.build c a b]⟩
  let check (s : Sim) (ev : ℕ) := if s.processed ev then (if s.triggered c then s else s.trigger c (.ok .nothing)) else s.addCallback ev (.check c)
  (check (check s1 a) b, .ok c)

end Verif
