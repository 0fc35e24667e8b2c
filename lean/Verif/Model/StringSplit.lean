import Verif.Model.Chunk
import Verif.Model.Err
import Mathlib.Data.List.Dedup
/-!
# The slot mini-language

Models `stringsplitting` (utilities.py:125-143) and its use in `Chunk.__init__` (chunks.py:113-128) and `makechunk`
(chunks.py:456-472).
-/
namespace Verif

/-- The special characters `=`, `!`, `~` (utilities.py:24-29). -/
def isSpecial (c : Char) : Bool := c == '=' || c == '!' || c == '~'

/-- `.*?(?=$|\~|\!|\=)` at the start of `s` (utilities.py:131-134): the shortest prefix followed by a special character or
the end. `.` does not match a newline; `$` also matches before a final newline. -/
def lazyRun : List Char → Option (List Char)
  | [] => some []
  | '\n' :: r => if r.isEmpty then some [] else Option.none
  | c :: r => if isSpecial c then some [] else (lazyRun r).map (c :: ·)

/-- `re.findall` for the four patterns (utilities.py:131-134): the matches start right after the mark `mark`, which must
(`neg = true`) or must not (`neg = false`) come after a `~`. `p` is the character before the current one. Matches end before
a special character or at the end, so they never overlap and every starting position is tried. -/
def findMarks (mark : Char) (neg : Bool) : Option Char → List Char → List (List Char)
  | _, [] => []
  | p, c :: r =>
    if c = mark ∧ ((p = some '~') ↔ neg = true) then
      match lazyRun r with
      | some m => m :: findMarks mark neg (some c) r
      | Option.none => findMarks mark neg (some c) r
    else findMarks mark neg (some c) r

/-- The dictionary of four sets `varval` (utilities.py:129); sets are lists without repetition. -/
structure Split where
  values : List String
  vars : List String
  negvalues : List String
  negvars : List String
deriving Repr, DecidableEq

/-- `set(re.findall(...))`. -/
def markSet (mark : Char) (neg : Bool) (s : String) : List String :=
  ((findMarks mark neg Option.none s.toList).map String.ofList).dedup

/-- The four `re.findall` calls and the default of line 136 (utilities.py:129-136). -/
def splitParts (info : String) : Split :=
  let v := Split.mk (markSet '!' false info) (markSet '=' false info) (markSet '!' true info) (markSet '=' true info)
  if v.values.isEmpty && v.vars.isEmpty && v.negvalues.isEmpty && v.negvars.isEmpty then { v with values := [info] } else v

/-- `stringsplitting` (utilities.py:125-143). -/
def stringsplitting (info : String) : Except PyErr Split :=
  let v := splitParts info
  if v.values.length > 1 then .error .actr
  else if v.vars.length > 1 then .error .actr
  else .ok v

/-- `tuple(s)` for a set `s` of strings: the elements in an order that Python does not specify. -/
structure SetOrder where
  ord : List String → List String
  perm : ∀ l, (ord l).Perm l

/-- Turning the four sets into a `VarvalClass` (chunks.py:117-128, 462-472): negations become tuples, values and variables
are popped (None if empty). -/
def Split.toVarVal (O : SetOrder) (v : Split) : VarVal :=
  ⟨match v.values with | [] => .none | x :: _ => .str x, v.vars.head?, (O.ord v.negvalues).map .str, O.ord v.negvars⟩

/-- A slot value given as a string (chunks.py:111-128). -/
def parseSlot (O : SetOrder) (s : String) : Except PyErr VarVal :=
  match stringsplitting s with
  | .error e => .error e
  | .ok v => .ok (v.toVarVal O)

end Verif
