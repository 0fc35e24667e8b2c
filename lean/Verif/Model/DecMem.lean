import Verif.Model.BoundVars
import Verif.Model.Num
/-!
# Declarative memory

Models class `DecMem` (declarative.py:13-110).
-/
namespace Verif

/-- A Python dictionary whose keys are chunks: a chunk is found under every chunk with the same hash (chunks.py:165-169). -/
abbrev CDict (α : Type) := List (Chunk × α)

/-- `c == d` for chunks without bound variables. -/
def ceq (H : PyHash) (c d : Chunk) : Bool := c.hash H BV.init == d.hash H BV.init

def cdLook {α : Type} (H : PyHash) (c : Chunk) : CDict α → Option α
  | [] => Option.none
  | (d, a) :: r => if ceq H d c then some a else cdLook H c r

/-- `d[c] = a`; an equal key that is already there stays. -/
def cdSet {α : Type} (H : PyHash) (c : Chunk) (a : α) : CDict α → CDict α
  | [] => [(c, a)]
  | (d, b) :: r => if ceq H d c then (d, a) :: r else (d, b) :: cdSet H c a r

/-- `del d[c]`. -/
def cdDel {α : Type} (H : PyHash) (c : Chunk) : CDict α → CDict α
  | [] => []
  | (d, b) :: r => if ceq H d c then r else (d, b) :: cdDel H c r

/-- `collections.Counter` keyed by slot values. -/
abbrev VCounter := List (Val × ℕ)
def vcLook (H : PyHash) (v : Val) : VCounter → Option ℕ
  | [] => Option.none
  | (w, n) :: r => if keyEq H w v then some n else vcLook H v r
/-- `counter.update([v])` for a value that is in the counter; otherwise nothing (declarative.py:51-52). -/
def vcBump (H : PyHash) (v : Val) : VCounter → VCounter
  | [] => []
  | (w, n) :: r => if keyEq H w v then (w, n + 1) :: r else (w, n) :: vcBump H v r

/-- `collections.Counter` keyed by pairs of a slot name and a value. -/
abbrev SCounter := List ((String × Val) × ℕ)
def scLook (H : PyHash) (s : String) (v : Val) : SCounter → Option ℕ
  | [] => Option.none
  | ((t, w), n) :: r => if t == s && keyEq H w v then some n else scLook H s v r
def scBump (H : PyHash) (s : String) (v : Val) : SCounter → SCounter
  | [] => []
  | ((t, w), n) :: r => if t == s && keyEq H w v then ((t, w), n + 1) :: r else ((t, w), n) :: scBump H s v r

/-- The attributes of a `DecMem` (declarative.py:18-22): `_data`, `unrestricted_number_chunks`, `restricted_number_chunks`,
`activations`. -/
structure DecMem where
  data : CDict (List ℚ)
  unr : VCounter
  restr : SCounter
  act : CDict ℚ

def DecMem.empty : DecMem := ⟨[], [], [], []⟩

/-- `chunk in dm`. -/
def DecMem.has (H : PyHash) (dm : DecMem) (c : Chunk) : Bool := (cdLook H c dm.data).isSome

/-- declarative.py:49-52: a new chunk's slot values are counted if they are in the counter. -/
def bumpUnr (H : PyHash) (u : VCounter) (x : String × Slot) : VCounter :=
  let v := (splitting x.2).values
  if v.truthy then vcBump H v u else u

/-- declarative.py:53-56. -/
def bumpRestr (H : PyHash) (u : SCounter) (x : String × Slot) : SCounter :=
  let v := (splitting x.2).values
  if v.truthy then scBump H x.1 v u else u

/-- The time given to `dm[chunk] = time`, or as `time` to `add`: a number, or a collection of numbers. -/
inductive TimeArg where
  | one (t : ℚ)
  | many (l : List ℚ)

/-- declarative.py:57-64: a number is rounded, an array or other collection is taken as it is. -/
def TimeArg.traces : TimeArg → List ℚ
  | .one t => [round4 t]
  | .many l => l

/-- `dm[c] = times` (declarative.py:48-66), for a chunk. On an empty counter the loops do nothing. -/
def DecMem.setRaw (H : PyHash) (dm : DecMem) (c : Chunk) (l : List ℚ) : DecMem :=
  let new := !dm.has H c
  { dm with
    unr := if new then c.slots.foldl (bumpUnr H) dm.unr else dm.unr
    restr := if new then c.slots.foldl (bumpRestr H) dm.restr else dm.restr
    data := cdSet H c l dm.data }

/-- `dm[c] = time`. -/
def DecMem.setItem (H : PyHash) (dm : DecMem) (c : Chunk) (t : TimeArg) : DecMem := dm.setRaw H c t.traces

/-- `dm.setdefault(c, np.array([]))`: the memory and the value. -/
def DecMem.setDefault (H : PyHash) (dm : DecMem) (c : Chunk) : DecMem × List ℚ :=
  match cdLook H c dm.data with
  | some l => (dm, l)
  | Option.none => (dm.setRaw H c [], [])

/-- One round of `DecMem.add` (declarative.py:85-87, 94-96): the new traces are appended. -/
def DecMem.addOne (H : PyHash) (dm : DecMem) (c : Chunk) (t : TimeArg) : DecMem :=
  let r := dm.setDefault H c
  r.1.setRaw H c (r.2 ++ t.traces)

/-- The first argument of `DecMem.add`: a chunk or an iterable of chunks. `hashable` tells tuples, generators etc. from
lists and sets. -/
inductive Elem where
  | chunk (c : Chunk)
  | iter (hashable : Bool) (l : List Chunk)

/-- `dm.add(element, time)` (declarative.py:79-100). A list or set is unhashable: the TypeError is caught and its elements are
added one by one. A hashable iterable is taken for a key, which `__setitem__` rejects with ACTRError. Simplification: for a
hashable iterable the association counters are taken to be empty (otherwise line 51 runs over its elements first). -/
def DecMem.add (H : PyHash) (dm : DecMem) (e : Elem) (t : TimeArg) : DecMem × Except PyErr Unit :=
  match e with
  | .chunk c => (dm.addOne H c t, .ok ())
  | .iter false l => (l.foldl (fun dm c => dm.addOne H c t) dm, .ok ())
  | .iter true _ => (dm, .error .actr)

/-- `del dm[c]` (declarative.py:32-33). -/
def DecMem.del (H : PyHash) (dm : DecMem) (c : Chunk) : DecMem × Except PyErr Unit :=
  if dm.has H c then ({ dm with data := cdDel H c dm.data }, .ok ()) else (dm, .error .key)

/-- `DecMem(mapping)` (declarative.py:23-25): `update` assigns every item. -/
def DecMem.ofMapping (H : PyHash) (l : CDict TimeArg) : DecMem :=
  l.foldl (fun dm p => dm.setItem H p.1 p.2) DecMem.empty

/-- `{x: 0 for x in data}` (declarative.py:27). -/
def zeroDict (H : PyHash) (l : List Chunk) : CDict TimeArg := l.foldl (fun d c => cdSet H c (.one 0) d) []

/-- `DecMem(chunks)` for an iterable of chunks (declarative.py:23-27). `update` first tries to unpack each chunk into a key
and a value: with exactly two slots this succeeds, and the pair (name, value) is rejected as a key with ACTRError; otherwise
ValueError, and line 27 is executed. -/
def DecMem.ofChunks (H : PyHash) (l : List Chunk) : Except PyErr DecMem :=
  match l with
  | [] => .ok DecMem.empty
  | c :: _ => if c.slots.length = 2 then .error .actr else .ok (DecMem.ofMapping H (zeroDict H l))

end Verif

namespace Verif

/-- Calls that put chunks into a memory. -/
inductive MemOp where
  | add (e : Elem) (t : TimeArg)
  | set (c : Chunk) (t : TimeArg)

/-- One call. -/
def DecMem.step (H : PyHash) (dm : DecMem) : MemOp → DecMem × Except PyErr Unit
  | .add e t => dm.add H e t
  | .set c t => (dm.setItem H c t, .ok ())

/-- A history of calls on a new memory. -/
def runMem (H : PyHash) (ops : List MemOp) : DecMem := ops.foldl (fun dm op => (dm.step H op).1) DecMem.empty

end Verif
