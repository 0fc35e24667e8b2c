import Verif.Model.Buffer
/-!
# Rules and buffers as seen by the procedural module

Data used by class `ProductionRules` (productions.py:450-1021).
-/
namespace Verif

/-- A key of the dictionaries yielded by a rule, such as '=g': its first character and the rest (productions.py:568-569,
971-972). Simplification: keys are not empty (an empty key is an IndexError). -/
structure Key where
  code : Char
  name : String
deriving DecidableEq, Repr

/-- A value in the dictionary of a left-hand side: a chunk, or a dictionary of queries. -/
inductive LVal where
  | chunk (c : Chunk)
  | dict (d : List (String × String))

/-- A value in the dictionary of a right-hand side (model.py:256-268): a chunk, a dictionary of extra tests, a list of commands
(method name and argument), or None. -/
inductive RVal where
  | chunk (c : Chunk)
  | tests (d : List (String × String))
  | cmds (l : List (String × String))
  | nothing

/-- A production rule (productions.py:18-62): the dictionaries yielded by its generator, utility and reward. Simplification:
the generator yields the same dictionaries whenever it is called. -/
structure Rule where
  lhs : List (Key × LVal)
  rhs : List (Key × RVal)
  utility : ℚ
  reward : Option ℚ

/-- `Productions` (productions.py:64-448) as a dictionary: rules in the order of insertion. -/
abbrev Rules := List (String × Rule)

/-- A buffer as far as conditions see it: its content (at most one chunk, C15) and the attributes that can be queried: `state`
and, for some, `preparation`, `processor`, `execution`, `autoattending`. Simplification: other attributes (`dm`, `delay`,
`finst`, ...) cannot be queried. -/
structure BufFace where
  data : List Chunk
  attrs : List (String × String)

/-- `self.buffers`. -/
abbrev Faces := List (String × BufFace)

end Verif
