import Verif.Model.ChunkType
/-!
# Chunks from strings

Models `createchunkdict` (chunks.py:368-428), `makechunk` (chunks.py:430-476) and `chunkstring` (chunks.py:478-494), starting
from the list of slot/value pairs that pyparsing delivers (utilities.py:161-173; for the parser see Model/Parse).
-/
namespace Verif

/-- A parsed value (utilities.py:165-171): a plain or quoted word (with its quotes), or an operator with a word. -/
inductive PTok where
  | plain (s : String)
  | special (op : String) (w : String)
deriving DecidableEq, Repr

/-- Global state: `Chunk._chunktypes`, `Chunk._chunks`, `Chunk._undefinedchunktypecounter` (chunks.py:83-86). -/
structure World where
  types : Reg
  named : List (String × Chunk)
  counter : Nat

/-- The dictionary of four sets collected for one slot (chunks.py:375). -/
structure Acc where
  values : List Val
  vars : List String
  negvalues : List String
  negvars : List String

def Acc.new : Acc := ⟨[], [], [], []⟩

/-- `set.add` for strings. -/
def addStr (l : List String) (s : String) : List String := if s ∈ l then l else l ++ [s]
/-- `set.add` for slot values. -/
def addVal (H : PyHash) (l : List Val) (v : Val) : List Val := if l.any (fun w => keyEq H w v) then l else l ++ [v]

/-- `s[1:-1]`. -/
def unquote (s : String) : String := String.ofList (s.toList.drop 1).dropLast

/-- Is the first character a quote? -/
def quoted (s : String) : Bool :=
  match s.toList with
  | c :: _ => c == '\'' || c == '"'
  | [] => false

/-- One parsed value (chunks.py:377-408). The operators are those of `getchunk` (utilities.py:166). -/
def accTok (H : PyHash) (named : List (String × Chunk)) (a : Acc) : PTok → Acc
  | .plain s =>
    if quoted s then { a with values := addVal H a.values (.str (unquote s)) }
    else match alook s named with
      | some c => { a with values := addVal H a.values c.val }
      | Option.none => { a with values := addVal H a.values (.str s) }
  | .special op w =>
    if op = ">=" then { a with vars := addStr a.vars w, values := addVal H a.values (.str ">") }
    else if op = "<=" then { a with vars := addStr a.vars w, values := addVal H a.values (.str "<") }
    else if op = ">" ∨ op = "<" then { a with values := addVal H a.values (.str (op ++ w)) }
    else
      let u := if quoted w then unquote w else w
      if op = "=" then { a with vars := addStr a.vars u }
      else if op = "~" then { a with negvalues := addStr a.negvalues u }
      else if op = "~=" then { a with negvars := addStr a.negvars u }
      else a

/-- The loop of lines 373-410. -/
def accAll (H : PyHash) (named : List (String × Chunk)) : List (String × Acc) → List (String × PTok) → List (String × Acc)
  | d, [] => d
  | d, (n, t) :: r => accAll H named (aset n (accTok H named ((alook n d).getD Acc.new) t) d) r

/-- Lines 413-421 for one slot. -/
def Acc.close (O : SetOrder) (a : Acc) : Except PyErr VarVal :=
  if a.values.length > 1 then .error .actr
  else if a.vars.length > 1 then .error .actr
  else .ok ⟨a.values.head?.getD .none, a.vars.head?, (O.ord a.negvalues).map .str, O.ord a.negvars⟩

/-- The loop of lines 412-421. -/
def closeAll (O : SetOrder) : List (String × Acc) → Except PyErr (List (String × VarVal))
  | [] => .ok []
  | (n, a) :: r =>
    match a.close O with
    | .error e => .error e
    | .ok x => match closeAll O r with
      | .error e => .error e
      | .ok xs => .ok ((n, x) :: xs)

/-- `dict.pop(key)`: value and remaining dictionary. -/
def apop {α : Type} (n : String) (d : List (String × α)) : Option (α × List (String × α)) :=
  (alook n d).map (fun a => (a, d.filter (fun p => p.1 ≠ n)))

/-- Lines 422-428: the type is taken from `isa`, then `ISA`, then `Isa`; the first missing one ends the search. -/
def popTypes (d : List (String × VarVal)) : Val × List (String × VarVal) :=
  match apop "isa" d with
  | Option.none => (.str "", d)
  | some (x, d) => match apop "ISA" d with
    | Option.none => (x.values, d)
    | some (x, d) => match apop "Isa" d with
      | Option.none => (x.values, d)
      | some (x, d) => (x.values, d)

/-- `createchunkdict` (chunks.py:368-428). -/
def createchunkdict (H : PyHash) (O : SetOrder) (named : List (String × Chunk)) (toks : List (String × PTok)) :
    Except PyErr (Val × List (String × VarVal)) :=
  match closeAll O (accAll H named [] toks) with
  | .error e => .error e
  | .ok d => .ok (popTypes d)

/-- `makechunk(nameofchunk, typename, **dictionary)` (chunks.py:430-476), with the slots already given as `VarvalClass`
tuples. A type name that is a chunk is not a valid type name: `Chunk.__init__` ends in a KeyError (chunks.py:150); a zero-slot
chunk is falsy like the empty name. -/
def makechunk (E : PyEnv) (w : World) (name : String) (typ : Val) (d : List (String × SlotArg)) : World × Except PyErr Chunk :=
  let name := if name = "" then "unnamedchunk" else name
  let (typ, w) : Option String × World :=
    if typ.truthy then
      match typ with
      | .str s => (some s, w)
      | _ => (Option.none, w)
    else (some ("undefined" ++ toString w.counter), { w with counter := w.counter + 1 })
  match convertAll E d with
  | .error e => (w, .error e)
  | .ok vals =>
    match typ with
    | Option.none => (w, .error .key)
    | some typ =>
      match createChunk E w.types typ (vals.map (fun p => (p.1, SlotArg.vv p.2))) with
      | (reg, .error e) => ({ w with types := reg }, .error e)
      | (reg, .ok c) => ({ w with types := reg, named := aset name c w.named }, .ok c)

/-- `chunkstring(name, string)` after parsing (chunks.py:487-494). -/
def chunkstring (H : PyHash) (E : PyEnv) (w : World) (name : String) (toks : List (String × PTok)) : World × Except PyErr Chunk :=
  match createchunkdict H E.toSetOrder w.named toks with
  | .error e => (w, .error e)
  | .ok (typ, d) => makechunk E w name typ (d.map (fun p => (p.1, SlotArg.vv p.2)))

end Verif
