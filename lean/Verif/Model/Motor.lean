import Verif.Model.Buffer
/-!
# Motor requests

Models class `Motor` (motor.py).
-/
namespace Verif

/-- `Motor.LEFT_HAND` (motor.py:13). -/
def leftHand : List String :=
  ["1", "2", "3", "4", "5", "Q", "W", "E", "R", "T", "A", "S", "D", "F", "G", "Z", "X", "C", "V", "B", "SPACE"]

/-- `Motor.RIGHT_HAND` (motor.py:14). -/
def rightHand : List String :=
  ["6", "7", "8", "9", "0", "Y", "U", "I", "O", "P", "H", "J", "K", "L", "N", "M", "SPACE"]

/-- `Motor.PRESSING` (motor.py:15). -/
def pressingKeys : List String := ["A", "S", "D", "F", "J", "K", "L", "SPACE"]

/-- `Motor.SLOWEST` (motor.py:16). -/
def slowestKeys : List String := ["5", "6"]

/-- `chunk.n.values` (chunks.py:171-175): an unknown slot is an AttributeError, and so is an empty one, since the empty value has
no attribute `values`. -/
def slotValue (c : Chunk) (n : String) : Except PyErr Val :=
  match alook n c.slots with
  | some (.vv x) => .ok x.values
  | _ => .error .attribute

/-- `v in CMDMANUAL` (utilities.py:72). -/
def inCmdManual (H : PyHash) (v : Val) : Bool := keyEq H .none v || keyEq H (.str "None") v || keyEq H (.str "press_key") v

/-- `v in names` for a tuple of strings. -/
def inNames (H : PyHash) (names : List String) (v : Val) : Bool := names.any (fun s => pyEq H (.str s) v)

/-- `Motor.create(otherchunk, actrvariables)` (motor.py:42-65): the registry of chunk types afterwards and the chunk or the
exception. `upper` is `str.upper`. A value that is not a string has no method `upper`: AttributeError. With a command that is
None or 'None', `pressed_key` is never assigned (line 62). The handler of lines 50-51 re-raises ACTRError as ACTRError. -/
def motorCreate (P : Py) (upper : String → String) (reg : Reg) (other : Chunk) (bv : BV) : Reg × Except PyErr Chunk :=
  match resolveAll P bv true (removeUnused P.H other) with
  | .error e => (reg, .error e)
  | .ok mods =>
    match createChunk P.toPyEnv reg "_manual" (mods.map (fun p => (p.1, SlotArg.vv p.2))) with
    | (reg1, .error e) => (reg1, .error e)
    | (reg1, .ok c) =>
      match slotValue c "cmd" with
      | .error e => (reg1, .error e)
      | .ok cmd =>
        if !inCmdManual P.H cmd then (reg1, .error .actr)
        else if pyEq P.H cmd (.str "press_key") then
          match slotValue c "key" with
          | .error e => (reg1, .error e)
          | .ok (.str k) =>
            match createChunk P.toPyEnv reg1 "_manual" (aset "key" (SlotArg.text (upper k)) (mods.map (fun p => (p.1, SlotArg.vv p.2)))) with
            | (reg2, .error e) => (reg2, .error e)
            | (reg2, .ok c2) =>
              if leftHand.contains (upper k) then (reg2, .ok c2)
              else
                match slotValue c2 "key" with
                | .error e => (reg2, .error e)
                | .ok v => if inNames P.H rightHand v then (reg2, .ok c2) else (reg2, .error .actr)
          | .ok _ => (reg1, .error .attribute)
        else (reg1, .error .unboundLocal)

/-- `TIME_PRESSES` (motor.py:20) as looked up in `motorset` (productions.py:899-905): preparation, initiation, action, finishing
movement. -/
def timePresses (key : String) : ℚ × ℚ × ℚ × ℚ :=
  if slowestKeys.contains key then (0.25, 0.05, 0.11, 0.16)
  else if pressingKeys.contains key then (0.15, 0.05, 0.01, 0.09)
  else (0.25, 0.05, 0.1, 0.15)

/-- The preparation time (productions.py:906-917); `last` is the key of `last_key[0]`. Both `newchunk.key` and `last_key[0]` are
`VarvalClass` tuples, which are never equal to a string: none of the four membership tests of lines 912-913 is ever true, so
that both comparisons are `False == False`. -/
def prepTime (prepared : Bool) (last : Option String) (key : String) : ℚ :=
  if last = some key || prepared then 0
  else if last.isSome && (false == false) then
    if (false == false) then (timePresses key).1 - 0.1 else (timePresses key).1 - 0.05
  else (timePresses key).1

end Verif
