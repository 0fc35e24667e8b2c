import Verif.Model.Gen
import Verif.Model.Compile
import Verif.Model.Retrieve
import Verif.Model.Vision
/-!
# The state of a running model

What the processes of productions.py read and write: buffers with their states, memories, the registry of chunk types, the rules
and the attributes of `ProductionRules`, the environment.
-/
namespace Verif

/-- `_FREE`, `_BUSY`, `_ERROR` (utilities.py, used as attributes of buffers and compared with the words of queries). -/
inductive Status where
  | free | busy | error
deriving DecidableEq, Repr

/-- The word. -/
def Status.str : Status → String
  | .free => "free"
  | .busy => "busy"
  | .error => "error"

/-- A buffer object: `Goal` (goals.py), `DecMemBuffer` (declarative.py:112), `Visual`, `VisualLocation` (vision.py), `Motor`
(motor.py). Fields a class does not have are ignored: `delay` belongs to goals, `finst` and `recent` to retrieval buffers (`recent`)
and visual locations (`seen`), `activation` to retrieval buffers, `lastKey` (key and end of the last movement) to motor buffers,
`lastMvt`, `attend` (`attend_automatic`), `autoattending` and `focus` (`current_focus`) to visual buffers. -/
structure Buf where
  cls : BufClass
  data : List Chunk
  dm : Option ℕ
  state : Status
  preparation : Status
  processor : Status
  execution : Status
  autoattending : Status
  delay : ℚ
  finst : ℕ
  recent : List (Option Chunk)
  seen : List Stim
  activation : Option ℝ
  lastKey : Option String × ℚ
  lastMvt : ℚ
  attend : Bool
  focus : ℚ × ℚ

/-- The actions of events (utilities.py:91; the texts in productions.py and environment.py:123,129). -/
inductive Act where
  | unknown
  | conflict
  | selected (rule : String)
  | stopped (rule : String)
  | compiled (recreated : Bool) (rule : String)
  | fired (rule : String)
  | noRule
  | extraTest
  | cleared
  | executed
  | modified
  | wrote (c : Chunk)
  | created (c : Chunk)
  | encoded (c : Chunk)
  | encodedLoc (c : Option Chunk)
  | autoLoc (c : Chunk)
  | autoObj (c : Chunk)
  | stoppedAuto
  | startRetrieval
  | retrieved (c : Option Chunk)
  | shiftStarted
  | shiftPrepared
  | shiftComplete (p : ℚ × ℚ)
  | command (c : Chunk)
  | prepared
  | initiated
  | pressed (key : String)
  | finished
  | envStarting
  | envPrinted

/-- `Event` (utilities.py:91). -/
structure Ev where
  time : ℚ
  proc : String
  act : Act

/-- A generator object that has been created and not yet started: the method and its arguments. The buffer is given by its name
(objects in `self.buffers` are never replaced), the bindings are those of the rule that fired (the dictionary is not changed
afterwards, only replaced). -/
inductive Desc where
  | retrieveorset (name : String) (v : RVal) (bv : BV) (t : ℚ)
  | modifyRequest (name : String) (v : RVal) (bv : BV) (t : ℚ)
  | clear (name : String) (bv : BV) (t : ℚ)
  | autoSearch (name : String) (stims : List Stim) (t : ℚ)
  | autoBuffer (name : String) (stims : List Stim) (t : ℚ)
  | visualContinue (name : String) (c : Chunk) (bv : BV) (t : ℚ) (times : ℚ × ℚ × ℚ) (site : ℚ × ℚ)
  | motorContinue (name : String) (key : String) (t : ℚ) (presses : ℚ × ℚ × ℚ × ℚ)

/-- An element of `self.procs` (productions.py:474): the word PROCEDURAL, or a buffer name with a generator object. `id` is the
identity of the object. -/
inductive PItem where
  | procedural
  | gen (name : String) (id : ℕ) (d : Desc)

/-- What a process yields: an event, a generator object (the continuation of a visual or motor action), the list `self.procs`, or
None. -/
inductive YV where
  | ev (e : Ev)
  | cont (d : Desc)
  | procs
  | nothing

/-- The state of a running model. `dms` is `self.dm`: names and memories; `bv` is `__actrvariables`; `tick` counts the uses of random
numbers, `nextId` the generator objects. -/
structure Mach where
  reg : Reg
  mems : List DecMem
  dms : List (String × ℕ)
  bufs : List (String × Buf)
  rules : CRules
  ordered : List String
  used : Used
  bv : BV
  usedName : Option String
  extraTests : List (String × List (String × String))
  lastRule : Option String
  lastSlots : SlotVals
  curSlots : SlotVals
  compile : Option (String × String × SlotVals)
  procs : List PItem
  interaction : List String
  motorPrepared : Bool
  env : Option Env
  tick : ℕ
  nextId : ℕ

/-- What does not change in the course of a simulation: Python itself, the parameters, and the numbers that are not computed here.
`fl` turns a latency into a number of the clock (floating point); `draws` and `udraws` are random numbers; `emma` are the three times
and the landing site of a shift with the EMMA model (vision.py:344-348), `autoDelay` the encoding time of automatic buffering
(vision.py:309-310), `foveal` the distance of productions.py:815; `exec` is the effect of a method of a buffer called by the rule. -/
structure Cfg where
  P : Py
  upper : String → String
  pyInt : String → Option ℤ
  pyFloat : String → Option ℚ
  rp : RParams
  up : UParams
  ruleFiring : ℚ
  strict : Bool
  compilation : Bool
  autoVisual : Bool
  emmaOn : Bool
  fl : ℝ → ℚ
  draws : ℕ → ℕ → ℝ
  udraws : ℕ → ℕ → ℚ
  emma : ℕ → ℚ × ℚ → ℚ × ℚ → Option ℚ → Except PyErr ((ℚ × ℚ × ℚ) × (ℚ × ℚ))
  autoDelay : ℕ → Stim → ℚ
  foveal : ℚ
  exec : String × String → Buf → Buf × Except PyErr Unit

/-! ## Access to the state -/

/-- `self.buffers[name]`, nothing if there is none. -/
def Mach.buf (w : Mach) (name : String) : Option Buf := alook name w.bufs

/-- Change a buffer; nothing happens if there is none. -/
def Mach.upd (w : Mach) (name : String) (f : Buf → Buf) : Mach :=
  match alook name w.bufs with
  | some b => { w with bufs := aset name (f b) w.bufs }
  | Option.none => w

/-- `buffer.state = s`. -/
def Mach.setState (w : Mach) (name : String) (s : Status) : Mach := w.upd name (fun b => { b with state := s })

/-- The attributes of a buffer that can be queried. -/
def Buf.attrs (b : Buf) : List (String × String) :=
  match b.cls with
  | .motor => [("state", b.state.str), ("preparation", b.preparation.str), ("processor", b.processor.str),
      ("execution", b.execution.str)]
  | .visual => [("state", b.state.str), ("preparation", b.preparation.str), ("processor", b.processor.str),
      ("execution", b.execution.str), ("autoattending", b.autoattending.str)]
  | _ => [("state", b.state.str)]

/-- The buffers as conditions see them. -/
def Mach.faces (w : Mach) : Faces := w.bufs.map (fun p => (p.1, ⟨p.2.data, p.2.attrs⟩))

/-- The buffers as compilation sees them. -/
def Mach.cbufs (w : Mach) : List (String × CBuf) := w.bufs.map (fun p => (p.1, ⟨p.2.cls, !p.2.data.isEmpty⟩))

/-- The kind of a buffer as far as its content is concerned. -/
def BufClass.kind : BufClass → BufKind
  | .goal => .goal
  | .decmem => .retrieval
  | .motor => .motor
  | .visual => .visual
  | .visualLocation => .visual

/-- A buffer with the memories, as the operations of `Model/Buffer` take it. -/
def Mach.bst (w : Mach) (b : Buf) : BState := ⟨w.reg, b.data, b.dm, w.mems⟩

/-- Put the result of such an operation back. -/
def Mach.putBst (w : Mach) (name : String) (st : BState) : Mach :=
  ({ w with reg := st.reg, mems := st.mems } : Mach).upd name (fun b => { b with data := st.data })

/-- Perform an operation of `Model/Buffer` on a buffer. A buffer that does not exist: AttributeError (of None). -/
def Mach.onBuf (w : Mach) (name : String) (f : Buf → BState → BResult) : Mach × Except PyErr Unit :=
  match w.buf name with
  | Option.none => (w, .error .attribute)
  | some b =>
    let r := f b (w.bst b)
    (w.putBst name r.1, r.2)

/-! ## Generators on this state -/

/-- A generator on the state of a running model. -/
abbrev GenM (R : Type) := Gen Mach YV R

namespace GenM

/-- `return r`. -/
def pure {R : Type} (r : R) : GenM R := fun w => .ret w r

/-- One piece of code after another. -/
def bind {A B : Type} (g : GenM A) (f : A → GenM B) : GenM B := fun w => (g w).bind f

/-- `raise`. -/
def throw {R : Type} (e : PyErr) : GenM R := fun w => .raise w e

/-- `yield y`. -/
def yield (y : YV) : GenM Unit := fun w => .yield w y (fun w' => .ret w' ())

/-- `yield Event(roundtime(t), name, a)`. -/
def event (t : ℚ) (name : String) (a : Act) : GenM Unit := yield (.ev ⟨round4 t, name, a⟩)

/-- Assignments. -/
def set (f : Mach → Mach) : GenM Unit := fun w => .ret (f w) ()

/-- Reading. -/
def get {A : Type} (f : Mach → A) : GenM A := fun w => .ret w (f w)

/-- An operation that may raise. -/
def act {A : Type} (f : Mach → Mach × Except PyErr A) : GenM A := fun w =>
  match f w with
  | (w', .ok a) => .ret w' a
  | (w', .error e) => .raise w' e

/-- An expression that may raise. -/
def lift {A : Type} (x : Except PyErr A) : GenM A := act (fun w => (w, x))

end GenM

instance : Monad GenM where
  pure := GenM.pure
  bind := GenM.bind

end Verif
