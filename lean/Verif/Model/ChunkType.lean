import Verif.Model.StringSplit
import Mathlib.Data.List.Sort
/-!
# Chunk types and chunk creation

Models `chunktype` (chunks.py:13-52) and `Chunk.__init__` (chunks.py:91-155). Field names are kept without the suffix "_"
that the code appends (chunks.py:34,131) and removes again (chunks.py:213); they are sorted as if it were there.
-/
namespace Verif

/-- What depends on Python itself: which slot names and type names `collections.namedtuple` accepts (identifiers; a slot
name must not start with an underscore), and the order of tuples made from sets. -/
structure PyEnv extends SetOrder where
  fieldOk : String → Bool
  typeOk : String → Bool

/-- `Chunk._chunktypes` (chunks.py:83): type name to sorted field names. -/
abbrev Reg := List (String × List String)

/-- Python's `<=` on `name + "_"`: lexicographic by code point. -/
def fieldLe (a b : String) : Bool := decide (a ++ "_" ≤ b ++ "_")

/-- `tuple(sorted(name + "_" for name in names))` (chunks.py:34). -/
def sortFields (l : List String) : List String := l.mergeSort fieldLe

/-- `utilities.SPECIALCHUNKTYPES` (utilities.py:68): the types whose slots cannot be redefined. -/
def specialTypes : List (String × String) :=
  [("_manual", "cmd, key"), ("_visual", "cmd, value, color, screen_pos"),
   ("_visuallocation", "screen_x, screen_y, color, value")]

/-- The argument `field_names`: a string of names separated by spaces or commas, or an iterable of names. -/
inductive FieldArg where
  | text (s : String)
  | names (l : List String)

/-- `field_names.replace(',', ' ').split()` (chunks.py:31). Simplification: only blanks are white space. -/
def splitWords (s : String) : List String :=
  (go [] (s.toList.map (fun c => if c = ',' then ' ' else c))).filter (fun w => w ≠ "")
where
  /-- Words separated by single blanks; `acc` is the current word, reversed. -/
  go (acc : List Char) : List Char → List String
    | [] => [String.ofList acc.reverse]
    | c :: r => if c = ' ' then String.ofList acc.reverse :: go [] r else go (c :: acc) r

def FieldArg.list : FieldArg → List String
  | .text s => splitWords s
  | .names l => l

/-- Does the argument equal the string `s`? (chunks.py:27) -/
def FieldArg.isText (a : FieldArg) (s : String) : Bool :=
  match a with
  | .text t => t == s
  | .names _ => false

/-- `collections.namedtuple(cls_name, field_names)`: valid names, no duplicates; otherwise ValueError. -/
def namedtupleOk (E : PyEnv) (name : String) (fields : List String) : Bool :=
  E.typeOk name && fields.all E.fieldOk && decide fields.Nodup

/-- The loop over the parents (chunks.py:45-51): after each parent the fields are the sorted union. -/
def inheritLoop (reg : Reg) : List String → List String → List String → Except PyErr (List String)
  | fields, _, [] => .ok fields
  | fields, inh, p :: r =>
    match alook p reg with
    | Option.none => .error .actr
    | some fs => inheritLoop reg (sortFields (fields ++ (inh ++ fs)).dedup) (inh ++ fs) r

/-- `chunktype(cls_name, field_names, include=include)` (chunks.py:13-52). The check of lines 35-37 compares names ending
in "_" with "isa", so it never fires; it is modelled as such. `defaults` are left out: all chunks are created with all
slots given. -/
def chunktype (E : PyEnv) (reg : Reg) (name : String) (fields : FieldArg) (incl : List String) : Except PyErr Reg :=
  if specialTypes.any (fun t => t.1 == name && !fields.isText t.2) then .error .actr else
  let fs := sortFields fields.list
  if fs.any (fun n => n ++ "_" == "ISA" || n ++ "_" == "isa") then .error .actr else
  match inheritLoop reg fs [] incl with
  | .error e => .error e
  | .ok fs => if namedtupleOk E name fs then .ok (aset name fs reg) else .error .value

/-- What can be given as the value of a slot when creating a chunk: another chunk, a `VarvalClass` (whose fields have the
right types, chunks.py:101-107), or anything else that is hashable and not iterable, which is turned into a string. -/
inductive SlotArg where
  | chunk (c : Chunk)
  | vv (x : VarVal)
  | text (s : String)

/-- chunks.py:96-128. -/
def SlotArg.convert (E : PyEnv) : SlotArg → Except PyErr VarVal
  | .chunk c => .ok ⟨c.val, Option.none, [], []⟩
  | .vv x => .ok x
  | .text s => parseSlot E.toSetOrder s

/-- The loop of lines 96-131. -/
def convertAll (E : PyEnv) : List (String × SlotArg) → Except PyErr (List (String × VarVal))
  | [] => .ok []
  | (n, a) :: r =>
    match a.convert E with
    | .error e => .error e
    | .ok x => match convertAll E r with
      | .error e => .error e
      | .ok xs => .ok ((n, x) :: xs)

/-- `self._chunktypes[typename](**kwargs)` (chunks.py:150): the slots in the order of the type's fields; TypeError unless
exactly the fields are given. -/
def buildSlots (fields : List String) (kw : Slots) : Except PyErr Slots :=
  if kw.all (fun p => fields.contains p.1) && fields.all (fun f => (alook f kw).isSome) then
    .ok (fields.filterMap (fun f => (alook f kw).map (fun s => (f, s))))
  else .error .type

/-- `Chunk(typename, **dictionary)` (chunks.py:91-155): the registry afterwards and the chunk or the exception. Whatever
happens in lines 132-148, the `finally` clause of lines 149-150 is executed, and an exception raised there replaces an
earlier one. The keys of `dictionary` are distinct. -/
def createChunk (E : PyEnv) (reg : Reg) (typ : String) (dict : List (String × SlotArg)) : Reg × Except PyErr Chunk :=
  match convertAll E dict with
  | .error e => (reg, .error e)
  | .ok vals =>
    let kw0 : Slots := vals.map (fun p => (p.1, SlotOf.vv p.2))
    match alook typ reg with
    | some fields =>
      let missing := fields.filter (fun f => !(kw0.map Prod.fst).contains f)
      let kw := kw0 ++ missing.map (fun f => (f, SlotOf.empty))
      if kw.all (fun p => fields.contains p.1) then
        -- the sets of names agree: the type is used as it is
        (reg, (buildSlots fields kw).map (fun sl => ⟨typ, sl⟩))
      else
        match chunktype E reg typ (.names (kw.map Prod.fst)) [] with
        | .error _ => (reg, (buildSlots fields kw).map (fun sl => ⟨typ, sl⟩))
        | .ok reg' =>
          match alook typ reg' with
          | Option.none => (reg', .error .key)
          | some fields' => (reg', (buildSlots fields' kw).map (fun sl => ⟨typ, sl⟩))
    | Option.none =>
      match chunktype E reg typ (.names (kw0.map Prod.fst)) [] with
      | .error _ => (reg, .error .key)
      | .ok reg' =>
        match alook typ reg' with
        | Option.none => (reg', .error .key)
        | some fields' => (reg', (buildSlots fields' kw0).map (fun sl => ⟨typ, sl⟩))

end Verif
