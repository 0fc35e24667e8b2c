import Verif.Model.Gen
import Verif.Model.Num
import Verif.Model.Chunk
/-!
# The environment

Models class `Environment` (environment.py).
-/
namespace Verif

/-- One object on the screen: a dictionary with the keys 'text', 'position', 'vis_delay', 'visual_location_typename',
'visual_typename', 'externally_visible' and other attributes. Simplification: texts and attributes are strings, positions pairs
of numbers. -/
structure Stim where
  text : Option String
  pos : Option (ℚ × ℚ)
  visDelay : Option ℚ
  locType : Option String
  visType : Option String
  extVis : Option (List String)
  attrs : List (String × String)
deriving DecidableEq, Repr

/-- An environment state: names and objects. -/
abbrev Screen := List (String × Stim)

/-- An element of the argument `stimuli`: a dictionary of dictionaries, a dictionary with a value that is not a dictionary, any
other hashable object (given by its text), or an object that is not hashable. -/
inductive StimItem where
  | screen (s : Screen)
  | badScreen
  | text (t : String)
  | unhashable

/-- The argument `stimuli`: one element (this includes None and strings), or a list or tuple of elements. -/
inductive StimArg where
  | single (x : StimItem)
  | list (l : List StimItem)
  | tuple (l : List StimItem)

/-- An element of the argument `triggers`: a string, an iterable of strings, or anything else (not iterable, or an iterable with
something in it that is not a string). -/
inductive TrigItem where
  | str (s : String)
  | many (l : List String)
  | other

/-- The argument `triggers`: a string or something that is not iterable, or a list or tuple. -/
inductive TrigArg where
  | single (x : TrigItem)
  | list (l : List TrigItem)

/-- The argument `times`: a number or a list of numbers. Simplification: exact rational numbers. -/
inductive EnvTimes where
  | single (t : ℚ)
  | list (l : List ℚ)

/-- The state of `Environment` (environment.py:18-43) that the process uses. Sets of triggers are lists. -/
structure Env where
  initialTime : ℚ
  focus : ℚ × ℚ
  stimuli : List Screen
  triggers : List (List String)
  times : List ℚ
  stimulus : Option Screen
  trigger : Option (List String)

/-- `{x: {'position': (320, 180)}}` (environment.py:93). -/
def defaultScreen (t : String) : Screen :=
  [(t, ⟨Option.none, some (320, 180), Option.none, Option.none, Option.none, Option.none, []⟩)]

/-- The loop of environment.py:87-93; assigning to an element of a tuple is a TypeError, and so is using an object that is not
hashable as a key. -/
def normStims (isTuple : Bool) : List StimItem → Except PyErr (List Screen)
  | [] => .ok []
  | x :: r =>
    match x with
    | .badScreen => .error .actr
    | .unhashable => .error .type
    | .screen s => match normStims isTuple r with
      | .ok l => .ok (s :: l)
      | .error e => .error e
    | .text t => if isTuple then .error .type else match normStims isTuple r with
      | .ok l => .ok (defaultScreen t :: l)
      | .error e => .error e

/-- environment.py:85-93. -/
def StimArg.norm : StimArg → Except PyErr (List Screen)
  | .single x => normStims false [x]
  | .list l => normStims false l
  | .tuple l => normStims true l

/-- environment.py:94-95. -/
def TrigArg.norm : TrigArg → List TrigItem
  | .single x => [x]
  | .list l => l

/-- environment.py:96-97. -/
def EnvTimes.norm : EnvTimes → List ℚ
  | .single t => [t]
  | .list l => l

/-- `l * n` for a list. -/
def repeatList {α : Type} (l : List α) (n : ℕ) : List α := (List.replicate n l).flatten

/-- environment.py:99-105. -/
def fitTriggers (st : List Screen) (tr : List TrigItem) : Except PyErr (List Screen × List TrigItem) :=
  if st.length ≠ tr.length then
    if st.length = 1 then .ok (repeatList st tr.length, tr)
    else if tr.length = 1 then .ok (st, repeatList tr st.length)
    else .error .actr
  else .ok (st, tr)

/-- environment.py:106-110. -/
def fitTimes (st : List Screen) (ti : List ℚ) : Except PyErr (List ℚ) :=
  if st.length ≠ ti.length then
    if ti.length = 1 then .ok (repeatList ti st.length) else .error .actr
  else .ok ti

/-- environment.py:115-118: one trigger. `upper` is `str.upper`. A string is an iterable of its characters. -/
def normTrigger (upper : String → String) : TrigItem → Except PyErr (List String)
  | .str s => if upper s = "SPACE" then .ok ["SPACE"] else .ok (s.toList.map (fun c => upper c.toString))
  | .many l => .ok (l.map upper)
  | .other => .error .actr

/-- environment.py:112-120. -/
def normTriggers (upper : String → String) : List TrigItem → Except PyErr (List (List String))
  | [] => .ok []
  | x :: r => match normTrigger upper x with
    | .error e => .error e
    | .ok t => match normTriggers upper r with
      | .ok l => .ok (t :: l)
      | .error e => .error e

/-- The preparation of the arguments (environment.py:85-120). -/
def prepareEnv (upper : String → String) (stimuli : StimArg) (triggers : TrigArg) (times : EnvTimes) :
    Except PyErr (List Screen × List (List String) × List ℚ) :=
  match stimuli.norm with
  | .error e => .error e
  | .ok st => match fitTriggers st triggers.norm with
    | .error e => .error e
    | .ok (st, tr) => match fitTimes st times.norm with
      | .error e => .error e
      | .ok ti => match normTriggers upper tr with
        | .error e => .error e
        | .ok tr => .ok (st, tr, ti)

/-- What the events of the environment process say (environment.py:123,129). -/
inductive EnvAct where
  | starting | printed
deriving DecidableEq, Repr

/-- An event of the environment: time and action. -/
abbrev EnvEvent := ℚ × EnvAct

/-- The loop over the stimuli (environment.py:124-129), with `W` any world that contains the environment. The list of stimuli is
the one the loop started with; times and triggers are read from the environment again each time. -/
def envLoop (upd : Env → W → W) (get : W → Env) : ℕ → ℚ → List Screen → Gen W EnvEvent Unit
  | _, _, [], w => .ret w ()
  | i, time, s :: r, w =>
    match (get w).times[i]? with
    | Option.none => .raise w .index
    | some t => match (get w).triggers[i]? with
      | Option.none => .raise w .index
      | some trig =>
        let time' := time + t
        .yield (upd { get w with trigger := some trig, stimulus := some s } w) (round4 time', .printed)
          (envLoop upd get (i + 1) time' r)

/-- `environment_process(stimuli, triggers, times, start_time)` (environment.py:63-129). -/
def envProcess (upd : Env → W → W) (get : W → Env) (upper : String → String) (stimuli : StimArg) (triggers : TrigArg)
    (times : EnvTimes) (startTime : ℚ) : Gen W EnvEvent Unit := fun w =>
  let start := (get w).initialTime - startTime
  match prepareEnv upper stimuli triggers times with
  | .error e => .raise w e
  | .ok (st, tr, ti) =>
    .yield (upd { get w with stimuli := st, triggers := tr, times := ti } w) (round4 start, .starting)
      (envLoop upd get 0 start st)

end Verif
