import Verif.Model.DecMem
/-!
# Buffers

Models class `Buffer` (buffers.py) and the overrides in goals.py, declarative.py:112-180, vision.py and motor.py.
-/
namespace Verif

/-- `removeunused` (chunks.py:342-362): the slots that say something. `x[1].values != None` is Python's `!=`. -/
def removeUnused (H : PyHash) (c : Chunk) : List (String × VarVal) :=
  c.slots.filterMap fun p => match p.2 with
    | .empty => Option.none
    | .vv x => if !pyEq H x.values .none || optStrTruthy x.vars || !x.negvars.isEmpty || !x.negvalues.isEmpty
      then some (p.1, x) else Option.none

/-- `{x[0]: check_bound_vars(actrvariables, x[1]) for x in otherchunk.removeunused()}` (buffers.py:104, goals.py:92, ...).
The handlers re-raise ACTRError as ACTRError; other exceptions pass through. -/
def resolveAll (P : Py) (bv : BV) (ni : Bool) : List (String × VarVal) → Except PyErr (List (String × VarVal))
  | [] => .ok []
  | (n, x) :: r =>
    match checkBoundVars P bv ni (.vv x) with
    | .error e => .error e
    | .ok v => match resolveAll P bv ni r with
      | .error e => .error e
      | .ok vs => .ok ((n, v) :: vs)

/-- `d.update(e)` for dictionaries keyed by slot names. -/
def dictUpdate {α : Type} (d e : List (String × α)) : List (String × α) := e.foldl (fun d p => aset p.1 p.2 d) d

/-- A slot of an existing chunk passed on to `Chunk(...)` (buffers.py:108-110): the empty value is neither a chunk nor a
`VarvalClass`, so it is turned into the string 'None' (chunks.py:80-81,115). -/
def slotToArg : Slot → SlotArg
  | .empty => .text "None"
  | .vv x => .vv x

/-- The arguments of `Chunk(otherchunk.typename, **elem_attr_val)` (buffers.py:107-110). -/
def modifyDict (elem : Chunk) (mods : List (String × VarVal)) : List (String × SlotArg) :=
  dictUpdate (elem.slots.map (fun p => (p.1, slotToArg p.2))) (mods.map (fun p => (p.1, SlotArg.vv p.2)))

/-- The kinds of buffers: `Goal`, `DecMemBuffer`, `Visual`/`VisualLocation` (alike as far as their content is concerned),
`Motor`. -/
inductive BufKind where
  | goal | retrieval | visual | motor
deriving DecidableEq, Repr

/-- A buffer with the declarative memories it can be harvested into: `_data` (a set, here a list), `dm` (the index of its
default memory), and the registry of chunk types, which creating chunks may extend. -/
structure BState where
  reg : Reg
  data : List Chunk
  dm : Option ℕ
  mems : List DecMem

abbrev BResult := BState × Except PyErr Unit

/-- `mem.add(chunk, time)` for the memory with index `i`. -/
def BState.harvest (P : Py) (st : BState) (i : ℕ) (c : Chunk) (t : ℚ) : BState :=
  { st with mems := st.mems.modify i (fun m => m.addOne P.H c (.one t)) }

/-- `Buffer.add` (buffers.py:56-67): `elem = none` stands for an object that is not a chunk. -/
def BState.bufferAdd (st : BState) (elem : Option Chunk) : BResult :=
  match elem with
  | some c => ({ st with data := [c] }, .ok ())
  | Option.none => ({ st with data := [] }, .error .type)

/-- `clear(time, harvest)` of goals.py:53-62, vision.py:79-88, 289-298; `DecMemBuffer.clear` (declarative.py:161-166) has
no argument `harvest`. Without a memory, `self.dm.add` is an AttributeError before anything is popped. Buffers without a
`clear` of their own (Motor) inherit `MutableSet.clear`, which drops the content. -/
def BState.clear (P : Py) (k : BufKind) (st : BState) (t : ℚ) (harvest : Option ℕ) : BResult :=
  match k with
  | .motor => ({ st with data := [] }, .ok ())
  | _ =>
    match st.data with
    | [] => (st, .ok ())
    | c :: rest =>
      match (if k = .retrieval then st.dm else harvest.or st.dm) with
      | Option.none => (st, .error .attribute)
      | some i => (({ st with data := rest } : BState).harvest P i c t, .ok ())

/-- `add(elem, time, harvest)`: Goal (goals.py:45-51) and plain buffers replace the content; DecMemBuffer
(declarative.py:154-159), Visual and VisualLocation (vision.py:53-64, 282-287) clear first; Motor refuses
(motor.py:36-40). -/
def BState.add (P : Py) (k : BufKind) (st : BState) (elem : Option Chunk) (t : ℚ) (harvest : Option ℕ) : BResult :=
  match k with
  | .goal => st.bufferAdd elem
  | .motor => (st, .error .attribute)
  | _ => match st.clear P k t harvest with
    | (st', .ok _) => st'.bufferAdd elem
    | (st', .error e) => (st', .error e)

/-- `set.add`. -/
def setAddChunk (H : PyHash) (l : List Chunk) (c : Chunk) : List Chunk :=
  if l.any (fun d => ceq H d c) then l else l ++ [c]

/-- `Buffer.modify` (buffers.py:96-111): the chunk is popped first and put back, modified, at the very end. -/
def BState.modify (P : Py) (st : BState) (other : Chunk) (bv : BV) : BResult :=
  match st.data with
  | [] => (st, .error .key)
  | elem :: rest =>
    match resolveAll P bv true (removeUnused P.H other) with
    | .error e => ({ st with data := rest }, .error e)
    | .ok mods =>
      match createChunk P.toPyEnv st.reg other.typ (modifyDict elem mods) with
      | (reg', .error e) => ({ st with reg := reg', data := rest }, .error e)
      | (reg', .ok c) => ({ st with reg := reg', data := setAddChunk P.H rest c }, .ok ())

/-- `Goal.create` (goals.py:87-98). -/
def BState.create (P : Py) (st : BState) (other : Chunk) (bv : BV) (harvest : Option ℕ) : BResult :=
  match resolveAll P bv true (removeUnused P.H other) with
  | .error e => (st, .error e)
  | .ok mods =>
    match createChunk P.toPyEnv st.reg other.typ (mods.map (fun p => (p.1, SlotArg.vv p.2))) with
    | (reg', .error e) => ({ st with reg := reg' }, .error e)
    | (reg', .ok c) => BState.add P .goal { st with reg := reg' } (some c) 0 harvest

/-- `Buffer.discard` (buffers.py:69-73). -/
def BState.discard (P : Py) (st : BState) (c : Chunk) : BResult :=
  ({ st with data := st.data.filter (fun d => !ceq P.H d c) }, .ok ())

/-- `pop()` (inherited from MutableSet: KeyError if empty, then discard). -/
def BState.pop (P : Py) (st : BState) : BResult :=
  match st.data with
  | [] => (st, .error .key)
  | c :: _ => st.discard P c

/-- Operations on a buffer. -/
inductive BufOp where
  | add (elem : Option Chunk) (t : ℚ) (harvest : Option ℕ)
  | clear (t : ℚ) (harvest : Option ℕ)
  | modify (other : Chunk) (bv : BV)
  | create (other : Chunk) (bv : BV) (harvest : Option ℕ)
  | discard (c : Chunk)
  | pop

/-- One operation. Only goals have `create` with an effect on the buffer (`Motor.create` returns a chunk and leaves the
buffer alone). -/
def BState.step (P : Py) (k : BufKind) (st : BState) : BufOp → BResult
  | .add e t h => st.add P k e t h
  | .clear t h => st.clear P k t h
  | .modify o bv => st.modify P o bv
  | .create o bv h => if k = .goal then st.create P o bv h else (st, .error .attribute)
  | .discard c => st.discard P c
  | .pop => st.pop P

/-- A history of operations; exceptions are caught by whoever performs the next operation. -/
def BState.run (P : Py) (k : BufKind) (st : BState) (ops : List BufOp) : BState :=
  ops.foldl (fun st op => (st.step P k op).1) st

end Verif
