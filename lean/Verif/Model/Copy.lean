import Verif.Model.Buffer
/-!
# Copies of memories and buffers

Models `DecMem.copy` (declarative.py:102-110), `DecMemBuffer.copy` (declarative.py:168-175), `Goal.copy` (goals.py:65-72) and the
attributes that the constructors set (buffers.py:18-25, goals.py:13-15, declarative.py:117-124).

Buffers are objects here, and so are the sets that hold their content (`_data`): `Buffer.add` gives the buffer a new set
(buffers.py:60), the other methods change the set they find. Two buffers with the same set would have the same content for ever.
Simplification: the arrays of times are values; nothing in pyactr changes an array in place.
-/
namespace Verif

/-- `DecMem.copy()` (declarative.py:102-110): `DecMem(self._data.copy())` assigns every item to a new memory, the counters and
activations are replaced afterwards. -/
def DecMem.copy (H : PyHash) (dm : DecMem) : DecMem :=
  { DecMem.ofMapping H (dm.data.map (fun p => (p.1, TimeArg.many p.2))) with act := dm.act, restr := dm.restr, unr := dm.unr }

/-- `add_activation` (declarative.py:68-77). -/
def DecMem.addActivation (H : PyHash) (dm : DecMem) (c : Chunk) (a : ℚ) : DecMem × Except PyErr Unit :=
  if dm.has H c then ({ dm with act := cdSet H c a dm.act }, .ok ()) else (dm, .error .attribute)

/-- A `Goal` (`retr = false`) or a `DecMemBuffer` (`retr = true`): the set that holds its content, its memory, `delay` (goals only),
`finst`, `recent` and `activation` (retrieval buffers only). -/
structure HBuf where
  retr : Bool
  set : ℕ
  dm : Option ℕ
  delay : ℚ
  finst : ℕ
  recent : List (Option Chunk)
  activation : Option ℚ

/-- The objects there are. -/
structure Heap where
  reg : Reg
  sets : List (List Chunk)
  mems : List DecMem
  bufs : List HBuf

abbrev HResult := Heap × Except PyErr Unit

/-- The class of a buffer. -/
def HBuf.kind (b : HBuf) : BufKind := if b.retr then .retrieval else .goal

/-- What a buffer sees of the world. -/
def Heap.view (h : Heap) (b : HBuf) : BState := ⟨h.reg, h.sets.getD b.set [], b.dm, h.mems⟩

/-- A method that changes the set of the buffer. -/
def Heap.inPlace (h : Heap) (b : HBuf) (r : BResult) : HResult :=
  ({ h with reg := r.1.reg, mems := r.1.mems, sets := h.sets.set b.set r.1.data }, r.2)

/-- `self._data = set()` and what follows (buffers.py:60-65) for the buffer with number `i`. -/
def Heap.fresh (h : Heap) (i : ℕ) (b : HBuf) (r : BResult) : HResult :=
  ({ h with reg := r.1.reg, mems := r.1.mems, sets := h.sets ++ [r.1.data], bufs := h.bufs.set i { b with set := h.sets.length } }, r.2)

/-- `add` (goals.py:45-51; declarative.py:154-159). -/
def Heap.add (P : Py) (h : Heap) (i : ℕ) (b : HBuf) (elem : Option Chunk) (t : ℚ) : HResult :=
  if b.retr then
    match (h.view b).clear P .retrieval t Option.none with
    | (st, .error e) => h.inPlace b (st, .error e)
    | (st, .ok _) => (h.inPlace b (st, .ok ())).1.fresh i b (st.bufferAdd elem)
  else h.fresh i b ((h.view b).bufferAdd elem)

/-- `create` (goals.py:87-98): the new chunk is added (line 98) if there is one. -/
def Heap.create (P : Py) (h : Heap) (i : ℕ) (b : HBuf) (other : Chunk) (bv : BV) : HResult :=
  if b.retr then (h, .error .attribute)
  else match resolveAll P bv true (removeUnused P.H other) with
    | .error e => (h, .error e)
    | .ok mods => match createChunk P.toPyEnv h.reg other.typ (mods.map (fun p => (p.1, SlotArg.vv p.2))) with
      | (reg', .error e) => ({ h with reg := reg' }, .error e)
      | (reg', .ok c) => ({ h with reg := reg' } : Heap).add P i b (some c) 0

/-- `copy(dm)`, `copy(harvest)`: a new buffer with a new set and the given memory, or else the memory of the original itself. The other
attributes are those of a new buffer. -/
def Heap.copyBuf (h : Heap) (b : HBuf) (dm : Option ℕ) : Heap :=
  { h with sets := h.sets ++ [h.sets.getD b.set []], bufs := h.bufs ++ [⟨b.retr, h.sets.length, dm.or b.dm, 0, 0, [], Option.none⟩] }

/-- `Goal(default_harvest=dm)`, `DecMemBuffer(decmem=dm)`. -/
def Heap.newBuf (h : Heap) (retr : Bool) (dm : Option ℕ) : Heap :=
  { h with sets := h.sets ++ [[]], bufs := h.bufs ++ [⟨retr, h.sets.length, dm, 0, 0, [], Option.none⟩] }

/-- Calls on the memory with the number `j`: `add`, `dm[c] = t`, `del dm[c]`, `add_activation`; `count` stands for what retrieval
stores in the counters (utilities.py:515-535). -/
inductive MOp where
  | op (o : MemOp)
  | del (c : Chunk)
  | activate (c : Chunk) (a : ℚ)
  | count (u : VCounter) (r : SCounter)

def DecMem.mstep (H : PyHash) (dm : DecMem) : MOp → DecMem × Except PyErr Unit
  | .op o => dm.step H o
  | .del c => dm.del H c
  | .activate c a => dm.addActivation H c a
  | .count u r => ({ dm with unr := u, restr := r }, .ok ())

/-- Calls on a buffer. `tune` stands for the assignments of `delay`, `finst`, `recent`, `activation` (retrieval does some of them). -/
inductive HBufOp where
  | add (elem : Option Chunk) (t : ℚ)
  | clear (t : ℚ)
  | modify (other : Chunk) (bv : BV)
  | create (other : Chunk) (bv : BV)
  | discard (c : Chunk)
  | pop
  | tune (delay : ℚ) (finst : ℕ) (recent : List (Option Chunk)) (activation : Option ℚ)

def Heap.bufStep (P : Py) (h : Heap) (i : ℕ) (b : HBuf) : HBufOp → HResult
  | .add e t => h.add P i b e t
  | .clear t => h.inPlace b ((h.view b).clear P b.kind t Option.none)
  | .modify o bv => h.inPlace b ((h.view b).modify P o bv)
  | .create o bv => h.create P i b o bv
  | .discard c => h.inPlace b ((h.view b).discard P c)
  | .pop => h.inPlace b ((h.view b).pop P)
  | .tune d f r a => ({ h with bufs := h.bufs.set i { b with delay := d, finst := f, recent := r, activation := a } }, .ok ())

/-- What a program may do. Calls on objects that are not there do nothing. -/
inductive HOp where
  | newMem
  | copyMem (j : ℕ)
  | mem (j : ℕ) (o : MOp)
  | newBuf (retr : Bool) (dm : Option ℕ)
  | copyBuf (i : ℕ) (dm : Option ℕ)
  | buf (i : ℕ) (o : HBufOp)
  | setDm (i : ℕ) (dm : Option ℕ)

def Heap.step (P : Py) (h : Heap) : HOp → Heap
  | .newMem => { h with mems := h.mems ++ [DecMem.empty] }
  | .copyMem j => match h.mems[j]? with
    | some m => { h with mems := h.mems ++ [m.copy P.H] }
    | Option.none => h
  | .mem j o => { h with mems := h.mems.modify j (fun m => (m.mstep P.H o).1) }
  | .newBuf r dm => h.newBuf r dm
  | .copyBuf i dm => match h.bufs[i]? with
    | some b => h.copyBuf b dm
    | Option.none => h
  | .buf i o => match h.bufs[i]? with
    | some b => (h.bufStep P i b o).1
    | Option.none => h
  | .setDm i dm => match h.bufs[i]? with
    | some b => { h with bufs := h.bufs.set i { b with dm := dm } }
    | Option.none => h

def Heap.run (P : Py) (h : Heap) (ops : List HOp) : Heap := ops.foldl (Heap.step P) h

/-- At the beginning. -/
def Heap.init (reg : Reg) : Heap := ⟨reg, [], [], []⟩

end Verif
