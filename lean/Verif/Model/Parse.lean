import Verif.Model.ChunkDict
/-!
# Reading rules and chunks from strings

Models the grammars `getchunk` (utilities.py:161-173) and `getrule` (utilities.py:249-260), `chunkstring` (chunks.py:478-494) and
`productionstring` (model.py:213-271). The elements of pyparsing (version 3) are modelled after their documented behaviour: each
skips white space and then matches as much as it can; alternatives are tried in order; what follows is not taken into account
(no backtracking); `parse_string` first replaces tabs by blanks.
-/
namespace Verif

/-- The white space skipped by pyparsing. -/
def wsChar (c : Char) : Bool := c == ' ' || c == '\n' || c == '\t' || c == '\r'

/-- Skip white space. -/
def skipWs (cs : List Char) : List Char := cs.dropWhile wsChar

/-- `str.expandtabs()` from column `col` on. -/
def expandTabs : ℕ → List Char → List Char
  | _, [] => []
  | col, c :: r =>
    if c = '\t' then List.replicate (8 - col % 8) ' ' ++ expandTabs 0 r
    else if c = '\n' ∨ c = '\r' then c :: expandTabs 0 r
    else c :: expandTabs (col + 1) r

/-- A parser: what it has read and the remaining text, or a ParseException. -/
abbrev Reader (A : Type) := List Char → Option (A × List Char)

/-- One reader after another (`+`). -/
def Reader.andThen {A B : Type} (p : Reader A) (f : A → Reader B) : Reader B := fun cs =>
  match p cs with
  | some (a, r) => f a r
  | Option.none => Option.none

/-- The first reader that succeeds (`|`). -/
def Reader.orElse {A : Type} (p q : Reader A) : Reader A := fun cs =>
  match p cs with
  | some x => some x
  | Option.none => q cs

/-- The result of a reader, changed. -/
def Reader.map {A B : Type} (f : A → B) (p : Reader A) : Reader B := fun cs => (p cs).map fun x => (f x.1, x.2)

/-- `pp.Word(first, rest)`. -/
def readWord (first rest : Char → Bool) : Reader String := fun cs =>
  match skipWs cs with
  | [] => Option.none
  | c :: r => if first c then some (String.ofList (c :: r.takeWhile rest), r.dropWhile rest) else Option.none

/-- `pp.Literal(s)`. -/
def readLit (s : String) : Reader String := fun cs =>
  let r := skipWs cs
  if s.toList.isPrefixOf r then some (s, r.drop s.length) else Option.none

/-- `pp.one_of(l)`, for a list in which no string is a prefix of a later one. -/
def readOneOf : List String → Reader String
  | [] => fun _ => Option.none
  | s :: l => (readLit s).orElse (readOneOf l)

/-- `pp.QuotedString(q, unquoteResults=False)`: no line breaks, no escapes; the quotes are kept. -/
def readQuoted (q : Char) : Reader String := fun cs =>
  match skipWs cs with
  | [] => Option.none
  | c :: r =>
    if c = q then
      let inside : Char → Bool := fun x => x ≠ q && x ≠ '\n' && x ≠ '\r'
      match r.dropWhile inside with
      | [] => Option.none
      | d :: r' => if d = q then some (String.ofList (q :: (r.takeWhile inside ++ [q])), r') else Option.none
    else Option.none

/-- `p` as often as it succeeds, at most `n` times. -/
def readMany {A : Type} (p : Reader A) : ℕ → Reader (List A)
  | 0 => fun cs => some ([], cs)
  | n + 1 => fun cs =>
    match p cs with
    | Option.none => some ([], cs)
    | some (a, r) => (readMany p n).map (a :: ·) r

/-- `pp.OneOrMore(p)`. Every reader used here reads something, so that the length of the text is a bound. -/
def readSome {A : Type} (p : Reader A) : Reader (List A) := p.andThen fun a cs => ((readMany p cs.length).map (a :: ·)) cs

/-! ## The grammar of chunks (utilities.py:161-173) -/

/-- `pp.alphas`: ASCII letters. -/
def alphaChar (c : Char) : Bool := ('a' ≤ c && c ≤ 'z') || ('A' ≤ c && c ≤ 'Z')
/-- `pp.alphanums`. -/
def alnumChar (c : Char) : Bool := alphaChar c || ('0' ≤ c && c ≤ '9')

/-- Line 165. -/
def readSlot : Reader String := readWord (fun c => alphaChar c || c == '_') (fun c => alnumChar c || c == '_')

/-- The operators of line 166, in the order in which `one_of` tries them: longer ones first. -/
def operators : List String := ["=", "~=", "~", ">=", ">", "<=", "<"]

/-- The characters of the word after an operator (line 167). -/
def opChar (c : Char) : Bool := alnumChar c || c == '_' || c == '"' || c == '\''

/-- The characters of a plain word (line 170). -/
def plainChar (c : Char) : Bool := alnumChar c || "_:|.,%&$`*-".toList.contains c

/-- Line 167. -/
def readSpecial : Reader PTok := (readOneOf operators).andThen fun op => (readWord opChar opChar).map (PTok.special op)

/-- Lines 168-171. -/
def readValue : Reader PTok :=
  (((readWord plainChar plainChar).map PTok.plain).orElse readSpecial).orElse
    (((readQuoted '"').map PTok.plain).orElse ((readQuoted '\'').map PTok.plain))

/-- A slot and its value (line 172). -/
def readPair : Reader (String × PTok) := readSlot.andThen fun n => readValue.map fun t => (n, t)

/-- `getchunk` (utilities.py:161-173). -/
def readChunk : Reader (List (String × PTok)) := readSome readPair

/-- `parse_string(string, parse_all=True)`. -/
def parseAll {A : Type} (p : Reader A) (text : String) : Option A :=
  match p (expandTabs 0 text.toList) with
  | some (a, r) => if skipWs r = [] then some a else Option.none
  | Option.none => Option.none

/-! ## The grammar of rules (utilities.py:249-260) -/

/-- One test or action: its sign, the buffer and the pairs of slots and values. -/
structure RulePart where
  sign : String
  buffer : String
  pairs : List (String × PTok)
deriving DecidableEq, Repr

/-- A rule as it is read. -/
structure RuleText where
  lhs : List RulePart
  rhs : List RulePart
deriving DecidableEq, Repr

/-- `_LHSCONVENTIONS` and `_RHSCONVENTIONS` (utilities.py:100-105). -/
def lhsSigns : List String := ["=", "?"]
def rhsSigns : List String := ["?", "=", "+", "!", "~", "@", "*"]

/-- Line 254. -/
def readBuffer : Reader String := readWord alphaChar (fun c => alnumChar c || c == '_')

/-- `pp.Optional(chunk)`. -/
def readMaybeChunk : Reader (List (String × PTok)) := readChunk.orElse fun cs => some ([], cs)

/-- One of the groups of line 259. -/
def readPart (signs : List String) : Reader RulePart :=
  (readOneOf signs).andThen fun s => readBuffer.andThen fun b => (readLit ">").andThen fun _ => readMaybeChunk.map fun l => ⟨s, b, l⟩

/-- `getrule` (utilities.py:249-260). -/
def readRule : Reader RuleText :=
  (readSome (readPart lhsSigns)).andThen fun l => (readLit "==>").andThen fun _ => (readSome (readPart rhsSigns)).map fun r => ⟨l, r⟩

/-! ## `chunkstring` and `productionstring` -/

/-- `chunkstring(name, string)` (chunks.py:478-494); `none` is a ParseException. -/
def chunkFromString (H : PyHash) (E : PyEnv) (w : World) (name text : String) : World × Option (Except PyErr Chunk) :=
  match parseAll readChunk text with
  | Option.none => (w, Option.none)
  | some toks => let r := chunkstring H E w name toks; (r.1, some r.2)

/-- A value in the dictionaries that a rule yields (model.py:243-268): a chunk, a dictionary of queries, a list of commands, None. -/
inductive Yielded where
  | chunk (c : Chunk)
  | queries (d : List (String × PTok))
  | commands (l : List (String × PTok))
  | nothing

/-- `{x[0]: x[1] for x in l}`: later pairs replace earlier ones. -/
def dictOf (l : List (String × PTok)) : List (String × PTok) := l.foldl (fun d p => aset p.1 p.2 d) []

/-- The value for one test or action (model.py:243-251, 253-268). `chunks.makechunk("", type, **slots)` is the last part of `chunkstring("", …)`. -/
def partValue (H : PyHash) (E : PyEnv) (right : Bool) (w : World) (p : RulePart) : World × Except PyErr Yielded :=
  if p.sign = "?" then (w, .ok (.queries (dictOf p.pairs)))
  else if right && p.sign == "~" then (w, .ok .nothing)
  else if right && p.sign == "!" then (w, .ok (.commands p.pairs))
  else
    match chunkstring H E w "" p.pairs with
    | (w, .ok c) => (w, .ok (.chunk c))
    | (w, .error e) => (w, .error e)

/-- The loops of lines 243 and 253: dictionaries keyed by sign and buffer. -/
def yieldSide (H : PyHash) (E : PyEnv) (right : Bool) : World → List (String × Yielded) → List RulePart → World × Except PyErr (List (String × Yielded))
  | w, d, [] => (w, .ok d)
  | w, d, p :: r =>
    match partValue H E right w p with
    | (w, .error e) => (w, .error e)
    | (w, .ok v) => yieldSide H E right w (aset (p.sign ++ p.buffer) v d) r

/-- What is stored for a rule (model.py:270): what was read, utility and reward. Its function yields `yieldSide` of both sides. -/
structure StoredRule where
  text : RuleText
  utility : ℚ
  reward : Option ℚ

/-- `productionstring(name, string, utility, reward)` (model.py:213-271). Without a name, a string is added to a number: TypeError (line 235);
what cannot be read is an ACTRError (line 242). -/
def productionstring (rules : List (String × StoredRule)) (name text : String) (utility : ℚ) (reward : Option ℚ) : List (String × StoredRule) × Except PyErr StoredRule :=
  if name = "" then (rules, .error .type)
  else
    match parseAll readRule text with
    | Option.none => (rules, .error .actr)
    | some t => (aset name ⟨t, utility, reward⟩ rules, .ok ⟨t, utility, reward⟩)

end Verif
