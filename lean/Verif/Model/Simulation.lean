import Verif.Model.Simpy
/-!
# Simulations

Models class `Simulation` (simulation.py) without the graphical interface and without real time.
-/
namespace Verif

/-- How a process goes on: it waits for an event at some place, or ends. -/
inductive Res where
  | wait (ev : ℕ) (pt : Pt)
  | done (v : SVal)

/-! ## Reporting -/

/-- `__activate__` (simulation.py:91-97). -/
def activateProc (e : Ev) : SimM Unit :=
  match e.act with
  | .unknown => pure ()
  | _ => if e.proc = procName then pure () else fun s =>
    if s.triggered s.procActivate then (s, .ok ()) else succeed s.procActivate s

/-- `__printevent__` and `__printenv__` (simulation.py:210-224). -/
def printEvent (e : Ev) : SimM Unit :=
  match e.act with
  | .unknown => pure ()
  | _ => .set (fun s => { s with trace := s.trace ++ [(s.now, e)] })

/-- Whether a key that was pressed is among the triggers of the environment (simulation.py:204). -/
def triggersEnv (env : Env) (pressed : List String) : Bool :=
  match env.trigger with
  | some tr => tr.any (fun k => pressed.contains k)
  | Option.none => false

/-- simulation.py:203-208; without an environment there is an AttributeError, which is caught. -/
def envInteraction : SimM Unit := fun s =>
  match s.w.env with
  | Option.none => (s, .ok ())
  | some env =>
    let forget : SimM Unit := .set (fun s => { s with w := { s.w with interaction := [] } })
    if triggersEnv env s.w.interaction then SimM.bind (succeed s.envActivate) (fun _ => forget) s else forget s

/-! ## `__localprocess__` (simulation.py:185-208) -/

/-- Lines 190-197: what the generator did when it was resumed. -/
def localRun (name : String) : Out Mach YV Unit → SimM Res
  | .yield w (.ev e) k => do
    .set (fun s => { s with w := w })
    let now ← SimM.get Sim.now
    let t ← timeout (e.time - round4 now)
    pure (.wait t (.localWait name e k))
  | .yield w (.cont d) _ => do
    .set (fun s => { s with w := w })
    pure (.done (.cont d))
  | .yield w .procs _ => do
    .set (fun s => { s with w := w })
    pure (.done .procs)
  | .yield w .nothing _ => do
    .set (fun s => { s with w := w })
    pure (.done .nothing)
  | .ret w _ => do
    .set (fun s => { s with w := w })
    pure (.done .nothing)
  | .raise w x => do
    .set (fun s => { s with w := w })
    .throw x

/-- From line 198 on, after the waiting. -/
def localResume (name : String) (e : Ev) (k : Mach → Out Mach YV Unit) : Except PyErr SVal → SimM Res
  | .error .interrupt => pure (.done .nothing)
  | .error x => .throw x
  | .ok _ => do
    printEvent e
    activateProc e
    envInteraction
    let w ← SimM.get Sim.w
    localRun name (k w)

/-! ## `__extraprocessGenerator__` (simulation.py:151-183) -/

/-- `__procs_started`. -/
def Sim.startedList (s : Sim) : List PItem := s.started.getD s.w.procs

/-- Change that list. -/
def Sim.setStarted (s : Sim) (l : List PItem) : Sim :=
  match s.started with
  | some _ => { s with started := some l }
  | Option.none => { s with w := { s.w with procs := l } }

/-- Lines 157 and 164: the first process for the buffer, and the list without it. The word PROCEDURAL in the list counts as a process for
a buffer with the name 'P', the first letter; it cannot be unpacked: ValueError. -/
def takeFor (name : String) : List PItem → Except PyErr (Option ((ℕ × Desc) × List PItem))
  | [] => .ok Option.none
  | .procedural :: r =>
    if name = "P" then .error .value
    else (takeFor name r).map (·.map (fun x => (x.1, .procedural :: x.2)))
  | .gen n i d :: r =>
    if n = name then .ok (some ((i, d), r))
    else (takeFor name r).map (·.map (fun x => (x.1, .gen n i d :: x.2)))

/-- The event that activates a module. -/
def activateOf (name : String) : SimM ℕ := fun s =>
  match alook name s.activate with
  | some a => (s, .ok a)
  | Option.none => (s, .error .key)

/-- Replace that event by a new one (line 162). -/
def renewActivate (name : String) : SimM ℕ := do
  let a ← newEvent
  .set (fun s => { s with activate := aset name a s.activate })
  pure a

/-- One round of the loop, from line 156 to the next waiting. If the event of line 161 has been processed the loop goes on at once; there
is still nothing to do, so it waits for a new event. -/
noncomputable def extraLoop (C : Cfg) (name : String) : SimM Res := do
  let l ← SimM.get Sim.startedList
  match takeFor name l with
  | .error x => .throw x
  | .ok Option.none => do
    .set (fun s => { s with interruptibles := adel name s.interruptibles })
    let a ← activateOf name
    let gone ← SimM.get (·.processed a)
    if gone then do
      let a' ← renewActivate name
      pure (.wait a' (.extraIdle name))
    else pure (.wait a (.extraIdle name))
  | .ok (some ((_, d), rest)) => do
    .set (·.setStarted rest)
    let a ← activateOf name
    let busy ← SimM.get (·.triggered a)
    if busy then pure () else succeed a
    let pro ← process (.localNew name (d.run C))
    pure (.wait pro (.extraMain name pro))

/-- From line 170 on. -/
noncomputable def extraAfterMain (C : Cfg) (name : String) (pro : ℕ) : Except PyErr SVal → SimM Res
  | .error .interrupt => do
    let over ← SimM.get (·.triggered pro)
    if over then pure () else interruptProcess pro
    extraLoop C name
  | .error x => .throw x
  | .ok (.cont d) => do
    let pro ← process (.localNew name (d.run C))
    pure (.wait pro (.extraCont name))
  | .ok _ => extraLoop C name

/-- From line 182 on. -/
noncomputable def extraAfterCont (C : Cfg) (name : String) : Except PyErr SVal → SimM Res
  | .error .interrupt => extraLoop C name
  | .error x => .throw x
  | .ok _ => extraLoop C name

/-! ## `__procprocessGenerator__` (simulation.py:226-252) -/

/-- Whether `proc[1].__name__` is in `_INTERRUPTIBLE` (utilities.py:108). -/
def Desc.interruptible : Desc → Bool
  | .retrieveorset .. => true
  | .modifyRequest .. => true
  | _ => false

/-- Interrupt the process of a module (line 247). -/
def interruptExtra (name : String) : SimM Unit := fun s =>
  match alook name s.extra with
  | some p => interruptProcess p s
  | Option.none => (s, .error .key)

/-- Lines 239-247: one process that was started by a rule. The word PROCEDURAL would not be in the list any more. -/
def notify : PItem → SimM Unit
  | .procedural => .throw .key
  | .gen name i d => do
    let a ← activateOf name
    let busy ← SimM.get (·.triggered a)
    if busy then do
      let old ← SimM.get (fun s => alook name s.interruptibles)
      match old with
      | Option.none => pure ()
      | some j =>
        if j = i then pure ()
        else do
          .set (fun s => { s with interruptibles := aset name i s.interruptibles })
          interruptExtra name
    else do
      if d.interruptible then .set (fun s => { s with interruptibles := aset name i s.interruptibles }) else pure ()
      succeed a

/-- Lines 238-247. -/
def notifyAll : List PItem → SimM Unit
  | [] => pure ()
  | x :: r => do
    notify x
    notifyAll r

/-- Lines 230-231 and 250-251: start the process of the rules. -/
noncomputable def procCycle (C : Cfg) (pt : Pt) : SimM Res := do
  let now ← SimM.get Sim.now
  let pro ← process (.localNew procName (genProcedural C now))
  pure (.wait pro pt)

/-- Line 249: one of the timeouts. -/
def procSpins (n : ℕ) : SimM Res := do
  let t ← timeout 0
  pure (.wait t (.procSpin n))

/-- Lines 233-249. If the event of line 236 has been processed, the loop goes on at once. -/
def procLoop : SimM Res := do
  let l ← SimM.get Sim.startedList
  if l.any (fun x => match x with | .procedural => true | _ => false) then do
    .set (·.setStarted (removeProcedural l))
    let l ← SimM.get Sim.startedList
    notifyAll l
    procSpins 4
  else do
    let a ← SimM.get Sim.procActivate
    let gone ← SimM.get (·.processed a)
    if gone then procSpins 4 else pure (.wait a .procIdle)

/-- `self.__procs_started = yield pro`: the list `self.procs` itself. Without it (this does not happen) line 234 fails. -/
def procsReturned : SVal → SimM Unit
  | .procs => .set (fun s => { s with started := Option.none })
  | _ => .throw .attribute

/-! ## `__envGenerator__` (simulation.py:99-136) and `__envprocess__` (138-149) -/

/-- An event of the environment. -/
def EnvEvent.ev (e : EnvEvent) : Ev := ⟨e.1, "ENVIRONMENT", match e.2 with | .starting => .envStarting | .printed => .envPrinted⟩

/-- The environment in the state of the model. -/
def envOf (w : Mach) : Env := w.env.getD ⟨0, (0, 0), [], [], [], Option.none, Option.none⟩

/-- Lines 106-107. -/
def envIter (e : EnvEvent) (k : Mach → Out Mach EnvEvent Unit) : SimM Res := do
  let pro ← process (.envProcNew e.ev)
  let a ← SimM.get Sim.envActivate
  let c ← anyOf pro a
  pure (.wait c (.envWait pro k))

/-- Lines 99-104. A generator that is not there cannot be called: TypeError; one that yields nothing: RuntimeError. -/
def envStart (C : Cfg) : SimM Res := fun s =>
  match s.envArgs with
  | Option.none => (s, .error .type)
  | some a =>
    match envProcess (fun env w => { w with env := some env }) envOf C.upper a.stimuli a.triggers a.times a.startTime s.w with
    | .yield w e k => envIter e k { s with w := w }
    | .ret w _ => ({ s with w := w }, .error .runtime)
    | .raise w x => ({ s with w := w }, .error x)

/-- Lines 117-127: the automatic process for a buffer. Simplification: all visual buffers belong to the environment. -/
def automaticFor (name : String) (b : Buf) (stims : List Stim) (now : ℚ) : Option Desc :=
  match b.cls with
  | .visualLocation => some (.autoSearch name stims now)
  | .visual => if b.attend then some (.autoBuffer name stims now) else Option.none
  | _ => Option.none

/-- The objects on the screen. -/
def Mach.onScreen (w : Mach) : List Stim := ((w.env.bind (·.stimulus)).getD []).map Prod.snd

/-- Lines 126-136: start the automatic process `d`, which is the generator number `i`. -/
def startAutomatic (name : String) (i : ℕ) (d : Desc) : SimM Unit := do
  .set (fun s => s.setStarted (s.startedList ++ [.gen name i d]))
  let a ← activateOf name
  let busy ← SimM.get (·.triggered a)
  if busy then do
    let old ← SimM.get (fun s => alook name s.interruptibles)
    match old with
    | Option.none => .throw .key
    | some _ => do
      .set (fun s => { s with interruptibles := aset name i s.interruptibles })
      interruptExtra name
  else do
    .set (fun s => { s with interruptibles := aset name i s.interruptibles })
    succeed a

/-- Lines 117-136 for one buffer. -/
def automatic (name : String) : SimM Unit := fun s =>
  match s.w.buf name with
  | Option.none => (s, .ok ())
  | some b => match automaticFor name b s.w.onScreen s.now with
    | Option.none => (s, .ok ())
    | some d => startAutomatic name s.w.nextId d { s with w := { s.w with nextId := s.w.nextId + 1 } }

/-- Lines 116-136. -/
def automaticAll : List String → SimM Unit
  | [] => pure ()
  | n :: r => do
    automatic n
    automaticAll r

/-- Lines 108-110. -/
def envNext (pro : ℕ) : SimM Unit := do
  let a ← SimM.get Sim.envActivate
  let pressed ← SimM.get (·.triggered a)
  if pressed then do
    let a' ← newEvent
    .set (fun s => { s with envActivate := a' })
    interruptProcess pro
  else pure ()

/-- Lines 111-136 and on to the next waiting. -/
def envAdvance (k : Mach → Out Mach EnvEvent Unit) : SimM Res := fun s =>
  match k s.w with
  | .ret w _ => ({ s with w := w }, .ok (.done .nothing))
  | .raise w x => ({ s with w := w }, .error x)
  | .yield w e k' => (do
      automaticAll (w.bufs.map Prod.fst)
      envIter e k' : SimM Res) { s with w := w }

/-- `__envprocess__` from line 142 on: a negative delay is a ValueError, after line 149. -/
def envProcStart (e : Ev) : SimM Res := fun s =>
  match timeout (e.time - s.now) s with
  | (s1, .ok t) => (s1, .ok (.wait t (.envProc e)))
  | (s1, .error x) => (do
      activateProc e
      .throw x : SimM Res) s1

/-- From line 144 on. -/
def envProcResume (e : Ev) : Except PyErr SVal → SimM Res
  | .error .interrupt => do
    activateProc e
    pure (.done .nothing)
  | .error x => do
    activateProc e
    .throw x
  | .ok _ => do
    printEvent e
    activateProc e
    pure (.done .nothing)

/-! ## The processes -/

/-- What a process does when it is resumed: the event it waited for gave a value, or it failed or the process is interrupted. -/
noncomputable def code (C : Cfg) : Pt → Except PyErr SVal → SimM Res
  | .procNew, .ok _ => procCycle C .procFirst
  | .procFirst, .ok v => do
    procsReturned v
    procLoop
  | .procIdle, .ok _ => procSpins 4
  | .procSpin n, .ok _ => match n with
    | 0 => procCycle C .procAgain
    | n + 1 => procSpins n
  | .procAgain, .ok v => do
    procsReturned v
    let a ← newEvent
    .set (fun s => { s with procActivate := a })
    procLoop
  | .extraNew name, .ok _ => extraLoop C name
  | .extraIdle name, .ok _ => do
    let _ ← renewActivate name
    extraLoop C name
  | .extraMain name pro, x => extraAfterMain C name pro x
  | .extraCont name, x => extraAfterCont C name x
  | .localNew name g, .ok _ => do
    let w ← SimM.get Sim.w
    localRun name (g w)
  | .localWait name e k, x => localResume name e k x
  | .envNew, .ok _ => envStart C
  | .envWait pro k, .ok _ => do
    envNext pro
    envAdvance k
  | .envProcNew e, .ok _ => envProcStart e
  | .envProc e, x => envProcResume e x
  | _, .error x => .throw x

/-! ## The loop of the simulation -/

/-- `Process._resume` of simpy: run the process until it waits again or ends. -/
noncomputable def Sim.resume (C : Cfg) (s : Sim) (p : ℕ) (x : Except PyErr SVal) : Sim :=
  match s.points p with
  | Option.none => s
  | some pt =>
    match code C pt x s with
    | (s1, .ok (.wait ev pt')) => ({ s1 with points := fset s1.points p (some pt'), target := fset s1.target p ev } : Sim).addCallback ev (.resume p)
    | (s1, .ok (.done v)) => ({ s1 with points := fset s1.points p Option.none } : Sim).trigger p (.ok v)
    | (s1, .error x) => ({ s1 with points := fset s1.points p Option.none } : Sim).trigger p (.error x)

/-- `event._defused = True`. -/
def Sim.defuse (s : Sim) (ev : ℕ) : Sim := { s with events := fset s.events ev { s.events ev with defused := true } }

/-- One callback of the event `ev`, which has the value `v`. -/
noncomputable def callback (C : Cfg) (ev : ℕ) (v : Except PyErr SVal) (s : Sim) : Callback → Sim
  | .resume p => match v with
    | .ok _ => s.resume C p v
    | .error _ => (s.defuse ev).resume C p v
  | .interrupt p => if s.triggered p then s else (s.dropCallback (s.target p) (.resume p)).resume C p v
  | .check c => if s.triggered c then s else match v with
    | .ok _ => s.trigger c (.ok .nothing)
    | .error x => (s.defuse ev).trigger c (.error x)
  | .build c a b => (s.dropCallback a (.check c)).dropCallback b (.check c)
  | .stop => s

/-- How a step ends: normally, by stopping `run`, by raising, or because nothing is scheduled. -/
inductive Stepped where
  | ok (s : Sim)
  | stopped (s : Sim)
  | raised (s : Sim) (x : PyErr)
  | empty

/-- `Environment.step` of simpy: the clock goes to the time of the next event and its callbacks are called; if it failed and nobody took
notice, the exception is raised. -/
noncomputable def Sim.step (C : Cfg) (s : Sim) : Stepped :=
  match s.queue with
  | [] => .empty
  | en :: q =>
    let ev := s.events en.ev
    let s1 := ({ s with now := en.time, queue := q, events := fset s.events en.ev { ev with callbacks := Option.none } } : Sim)
    let v := ev.value.getD (.ok .nothing)
    if (ev.callbacks.getD []).contains .stop then .stopped s1
    else
      let s2 := (ev.callbacks.getD []).foldl (callback C en.ev v) s1
      match v with
      | .error x => if (s2.events en.ev).defused then .ok s2 else .raised s2 x
      | .ok _ => .ok s2

/-- `Simulation.__init__` (simulation.py:31-89): the processes of the buffers. -/
def initExtra : List String → SimM Unit
  | [] => pure ()
  | n :: r => do
    if n = procName then pure ()
    else do
      let p ← process (.extraNew n)
      let a ← newEvent
      .set (fun s => { s with extra := s.extra ++ [(n, p)], activate := s.activate ++ [(n, a)] })
    initExtra r

/-- A simulation without processes. The events of lines 75 and 83 are there from the beginning (events that nobody waits for make no
difference); without an environment the second one is never used. -/
def Sim.blank (w : Mach) (args : Option EnvArgs) (t : ℚ) : Sim :=
  { now := round4 t, queue := [], events := fun ev => ⟨Option.none, false, if ev < 2 then some [] else Option.none⟩, next := 2,
    points := fun _ => Option.none, target := fun _ => 0, w := w, interruptibles := [], activate := [], extra := [], procActivate := 0,
    started := some [], envActivate := 1, envArgs := args, trace := [] }

/-- `Simulation.__init__` (simulation.py:31-89), for a simulation that is not in real time: the clock shows the initial time to four
decimals. -/
def Sim.init (w : Mach) (args : Option EnvArgs) (t : ℚ) : Sim :=
  ((do
    let _ ← process .procNew
    initExtra (w.bufs.map Prod.fst)
    if w.env.isSome then do
      let _ ← process .envNew
      pure ()
    else pure () : SimM Unit) (Sim.blank w args t)).1

/-- `Environment.run(until)` of simpy, before the first step: ValueError unless the time lies ahead. -/
def Sim.setStop (s : Sim) (t : ℚ) : Sim × Except PyErr Unit :=
  if t ≤ s.now then (s, .error .value)
  else ((s.alloc ⟨some (.ok .nothing), false, some [.stop]⟩).schedule s.next true (t - s.now), .ok ())

/-- The steps of a call of `run`, up to the point where it is stopped or an exception is raised. -/
inductive RunsOn (C : Cfg) : Sim → Sim → Except PyErr Unit → Prop
  | stopped {s s' : Sim} : s.step C = .stopped s' → RunsOn C s s' (.ok ())
  | raised {s s' : Sim} {x : PyErr} : s.step C = .raised s' x → RunsOn C s s' (.error x)
  | more {s s1 s' : Sim} {r : Except PyErr Unit} : s.step C = .ok s1 → RunsOn C s1 s' r → RunsOn C s s' r

/-- simulation.py:262-263: rules are compiled when nothing is left to happen. -/
def compileAtEnd (C : Cfg) (s : Sim) : Sim × Except PyErr Unit :=
  if s.queue.isEmpty then
    match compileIn C s.w with
    | (w, .ok _) => ({ s with w := w }, .ok ())
    | (w, .error x) => ({ s with w := w }, .error x)
  else (s, .ok ())

/-- `Simulation.run(max_time)` (simulation.py:254-263): a call that comes to an end, in state `s'`, perhaps with an exception. -/
inductive RunCall (C : Cfg) (s : Sim) (t : ℚ) : Sim → Except PyErr Unit → Prop
  | refused {s1 : Sim} {x : PyErr} : s.setStop t = (s1, .error x) → RunCall C s t s1 (.error x)
  | failed {s1 s2 : Sim} {x : PyErr} : s.setStop t = (s1, .ok ()) → RunsOn C s1 s2 (.error x) → RunCall C s t s2 (.error x)
  | ended {s1 s2 s3 : Sim} {r : Except PyErr Unit} : s.setStop t = (s1, .ok ()) → RunsOn C s1 s2 (.ok ()) → compileAtEnd C s2 = (s3, r) →
      RunCall C s t s3 r

/-- The states a simulation can be in: after any number of steps, also between calls of `run` or `step`, and after exceptions. -/
inductive Reachable (C : Cfg) (w : Mach) (args : Option EnvArgs) (t : ℚ) : Sim → Prop
  | init : Reachable C w args t (Sim.init w args t)
  | stop {s s' : Sim} {q : ℚ} {r : Except PyErr Unit} : Reachable C w args t s → s.setStop q = (s', r) → Reachable C w args t s'
  | step {s s' : Sim} : Reachable C w args t s → s.step C = .ok s' → Reachable C w args t s'
  | stopped {s s' : Sim} : Reachable C w args t s → s.step C = .stopped s' → Reachable C w args t s'
  | raised {s s' : Sim} {x : PyErr} : Reachable C w args t s → s.step C = .raised s' x → Reachable C w args t s'
  | compile {s s' : Sim} {r : Except PyErr Unit} : Reachable C w args t s → compileAtEnd C s = (s', r) → Reachable C w args t s'

end Verif
