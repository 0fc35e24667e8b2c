import Verif.Model.Rules
import Verif.Model.BoundVars
/-!
# Production compilation

Models `compile_rules` and its helpers (productions.py:121-448) with `make_chunkparts_without_varconflicts`,
`make_chunkparts_with_new_vars`, `merge_chunkparts` and `match` (utilities.py:175-245, 313-398).

Simplifications: chunk types do not change while rules are compiled (the registry `reg` is fixed; all chunks involved are of
types known already); no rule is replaced by another one of the same name after it was used for compilation (`__rename__` looks
its rule up by name, productions.py:280); slots do not have the names of attributes of class `Chunk` (utilities.py:366).
-/
namespace Verif

/-- What a rule yields when it is called: the dictionary of its left-hand side and then the dictionary of its right-hand side.
Compiled rules are closures (productions.py:125, 279, 306), so exceptions appear when the rule is called, not when it is made. -/
structure Body where
  lhs : Except PyErr (List (Key × LVal))
  rhs : Except PyErr (List (Key × RVal))

/-- A rule whose body may raise exceptions (`Production`, productions.py:18-62). -/
structure CRule where
  body : Body
  utility : ℚ
  reward : Option ℚ

/-- `Productions` (productions.py:64): a dictionary of rules. -/
abbrev CRules := List (String × CRule)

/-- An entry of `last_rule_slotvals` (productions.py:467-468, 660, 687, 703, 737, 788): None, a dictionary of slots, or for
retrieval a list of the slots requested and the chunk retrieved (or None). -/
inductive SlotInfo where
  | nothing
  | dict (d : Slots)
  | retr (d : Slots) (c : Option Chunk)

abbrev SlotVals := List (String × SlotInfo)

/-- The class of a buffer as far as compilation sees it. -/
inductive BufClass where
  | goal | decmem | motor | visual | visualLocation
deriving DecidableEq

/-- A buffer: its class and whether it holds a chunk (`if buffers[buff]`, productions.py:396). -/
structure CBuf where
  cls : BufClass
  full : Bool

/-- Lookup in a dictionary whose keys are the keys of rules. -/
def klook {α : Type} (k : Key) : List (Key × α) → Option α
  | [] => Option.none
  | (m, a) :: r => if m = k then some a else klook k r

/-- `d[k] = a`, keeping the position of an existing key. -/
def kset {α : Type} (k : Key) (a : α) : List (Key × α) → List (Key × α)
  | [] => [(k, a)]
  | (m, b) :: r => if m = k then (m, a) :: r else (m, b) :: kset k a r

/-- `d.pop(k)`. -/
def kdel {α : Type} (k : Key) (l : List (Key × α)) : List (Key × α) := l.filter (fun p => !decide (p.1 = k))

/-- `renaming_set` (productions.py:286-288, 313-315; utilities.py:343-345): the signs that come with a chunk. -/
def isChunkCode (c : Char) : Bool := c == '=' || c == '+' || c == '@' || c == '*'

/-- `Chunk(typename, **mod_attr_val)`. -/
def mkChunk (E : PyEnv) (reg : Reg) (typ : String) (d : List (String × SlotArg)) : Except PyErr Chunk :=
  (createChunk E reg typ d).2

/-- A slot of a chunk given to the constructor again: `str(EmptyValue)` is 'None' (chunks.py:80-81, 117). -/
def slotArg : Slot → SlotArg
  | .empty => .text "None"
  | .vv x => .vv x

/-! ## Changing the slots of a rule -/

/-- `"".join([var, "__rule__", rule_name])` (utilities.py:182, 189). -/
def ruleVar (name v : String) : String := v ++ "__rule__" ++ name

/-- `make_chunkparts_without_varconflicts` (utilities.py:175-196). The test for negated variables looks for the literal
text `=new_name` (line 190). -/
def renameSlot (E : PyEnv) (name : String) (used : List String) (s : Slot) : Except PyErr VarVal :=
  let x := splitting s
  if optStrTruthy x.vars && used.contains ("=" ++ ruleVar name (x.vars.getD "")) then .error .actr
  else if !x.negvars.isEmpty && used.contains "=new_name" then .error .actr
  else .ok ⟨x.values, if optStrTruthy x.vars then some (ruleVar name (x.vars.getD "")) else Option.none, x.negvalues,
    E.ord (x.negvars.map (ruleVar name)).dedup⟩

/-- The variable that `make_chunkparts_with_new_vars` puts in place of `v` (utilities.py:207, 219). Adding `v` itself to the
dictionary when it is missing has no effect on later lookups. -/
def newVar (matched : List (String × String)) (v : String) : String := (alook v matched).getD v

/-- `make_chunkparts_with_new_vars` (utilities.py:198-226). -/
def substSlot (P : Py) (matched : List (String × String)) (valued : List (String × Val)) (s : Slot) : Except PyErr VarVal :=
  let x := splitting s
  let negvars := P.ord ((x.negvars.filter (fun y => (alook y valued).isNone)).map (newVar matched)).dedup
  let negvals := P.vord ((x.negvars.filterMap (fun y => alook y valued)).foldl (addVal P.H)
    (x.negvalues.foldl (addVal P.H) []))
  if optStrTruthy x.vars then
    match alook (x.vars.getD "") valued with
    | Option.none => .ok ⟨x.values, some (newVar matched (x.vars.getD "")), negvals, negvars⟩
    | some v =>
      if x.values.truthy then
        if pyEq P.H v x.values then .ok ⟨x.values, Option.none, negvals, negvars⟩ else .error .actr
      else .ok ⟨v, Option.none, negvals, negvars⟩
  else .ok ⟨x.values, Option.none, negvals, negvars⟩

/-- The loop over the slots of a chunk (productions.py:292-294, 319-321, 418-420). -/
def mapSlots (f : Slot → Except PyErr VarVal) : Slots → Except PyErr (List (String × VarVal))
  | [] => .ok []
  | (n, s) :: r =>
    match f s with
    | .error e => .error e
    | .ok x => match mapSlots f r with
      | .error e => .error e
      | .ok xs => .ok ((n, x) :: xs)

/-- The new chunk (productions.py:295, 322). -/
def mapChunk (E : PyEnv) (reg : Reg) (f : Slot → Except PyErr VarVal) (c : Chunk) : Except PyErr Chunk :=
  match mapSlots f c.slots with
  | .error e => .error e
  | .ok d => mkChunk E reg c.typ (d.map (fun p => (p.1, .vv p.2)))

/-- One entry of a left-hand side. A dictionary under a sign that needs a chunk is an AttributeError. -/
def mapLVal (E : PyEnv) (reg : Reg) (f : Slot → Except PyErr VarVal) (k : Key) (v : LVal) : Except PyErr LVal :=
  if isChunkCode k.code then
    match v with
    | .chunk c => (mapChunk E reg f c).map .chunk
    | .dict _ => .error .attribute
  else .ok v

/-- One entry of a right-hand side. Iterating over None is a TypeError, dictionaries and lists are AttributeErrors. -/
def mapRVal (E : PyEnv) (reg : Reg) (f : Slot → Except PyErr VarVal) (k : Key) (v : RVal) : Except PyErr RVal :=
  if isChunkCode k.code then
    match v with
    | .chunk c => (mapChunk E reg f c).map .chunk
    | .nothing => .error .type
    | _ => .error .attribute
  else .ok v

/-- The loop over the keys (productions.py:282-296, 309-323). -/
def mapEntries {α : Type} (f : Key → α → Except PyErr α) : List (Key × α) → Except PyErr (List (Key × α))
  | [] => .ok []
  | (k, v) :: r =>
    match f k v with
    | .error e => .error e
    | .ok w => match mapEntries f r with
      | .error e => .error e
      | .ok r' => .ok ((k, w) :: r')

/-- The common part of `__rename__` and `__substitute__` (productions.py:275-300, 302-327). -/
def mapBody (E : PyEnv) (reg : Reg) (f : Slot → Except PyErr VarVal) (b : Body) : Body :=
  ⟨b.lhs.bind (mapEntries (mapLVal E reg f)), b.rhs.bind (mapEntries (mapRVal E reg f))⟩

/-- `__rename__(name, variables)` (productions.py:275-300). -/
def renameBody (E : PyEnv) (reg : Reg) (name : String) (used : List String) (b : Body) : Body :=
  mapBody E reg (renameSlot E name used) b

/-- `__substitute__(rule, variable_dict, val_dict)` (productions.py:302-327). -/
def substBody (P : Py) (reg : Reg) (matched : List (String × String)) (valued : List (String × Val)) (b : Body) : Body :=
  mapBody P.toPyEnv reg (substSlot P matched valued) b

/-! ## Matching the first rule's output with the second rule's conditions -/

/-- The dictionaries built by `match` (utilities.py:335-336). -/
structure MatchSt where
  matched : List (String × String)
  valued : List (String × Val)

/-- `d.update({x: a for x in l})`. -/
def asetAll {α : Type} (l : List String) (a : α) (d : List (String × α)) : List (String × α) :=
  l.foldl (fun d x => aset x a d) d

/-- `temp_func(temp_set, temp_val)` (utilities.py:317-332): variables found in the same slot are all replaced by its value, or
else by the shortest of them, `sorted(temp_set, key=len)[0]` (the first one of minimal length). -/
def tieVars (E : PyEnv) (set : List String) (v : Val) (st : MatchSt) : MatchSt :=
  let l := E.ord set
  if v.truthy then { st with valued := asetAll l v st.valued }
  else
    match l with
    | [] => st
    | x :: r => { st with matched := asetAll l (r.foldl (fun m y => if y.length < m.length then y else m) x) st.matched }

/-- `temp_set` (utilities.py:369-373, 383-387). -/
def slotVarSet (a b : VarVal) : List String :=
  ((if optStrTruthy a.vars then [a.vars.getD ""] else []) ++ (if optStrTruthy b.vars then [b.vars.getD ""] else [])).dedup

/-- The loop for a retrieval (utilities.py:356-374). The value of the slot in the chunk retrieved; None if there is no such
chunk or slot, or the slot is empty. -/
def retrievedVal (c : Option Chunk) (n : String) : Val :=
  match c with
  | Option.none => .none
  | some c => match alook n c.slots with
    | some (.vv x) => x.values
    | _ => .none

def matchRetr (E : PyEnv) (d3 : Slots) (c : Option Chunk) : Slots → MatchSt → MatchSt
  | [], st => st
  | (n, s) :: r, st =>
    matchRetr E d3 c r (tieVars E (slotVarSet (splitting s) (splitting ((alook n d3).getD .empty))) (retrievedVal c n) st)

/-- The loop for everything else (utilities.py:376-396). -/
def matchDict (P : Py) (d3 : Slots) : Slots → MatchSt → Except PyErr MatchSt
  | [], st => .ok st
  | (n, s) :: r, st =>
    let a := splitting s
    let b := splitting ((alook n d3).getD .empty)
    if a.values.truthy && b.values.truthy && !pyEq P.H a.values b.values then .error .actr
    else matchDict P d3 r (tieVars P.toPyEnv (slotVarSet a b) (if a.values.truthy then a.values else b.values) st)

/-- `d.pop(n)` for a dictionary with string keys. -/
def adel {α : Type} (n : String) (l : List (String × α)) : List (String × α) := l.filter (fun p => !decide (p.1 = n))

/-- `match(dict2, slotvals, ...)` (utilities.py:313-398): `tmp` is `temp_slotvals`, `sv` is `slotvals`, from which the retrieval
is removed. -/
def matchRules (P : Py) : List (Key × LVal) → SlotVals → SlotVals → MatchSt → Except PyErr (SlotVals × MatchSt)
  | [], _, sv, st => .ok (sv, st)
  | (k, v) :: r, tmp, sv, st =>
    if isChunkCode k.code then
      match v with
      | .dict _ => .error .attribute
      | .chunk c =>
        match alook k.name tmp with
        | some (.retr d3 c3) => matchRules P r (adel k.name tmp) (adel k.name sv) (matchRetr P.toPyEnv d3 c3 c.slots st)
        | some (.dict d3) =>
          match matchDict P d3 c.slots st with
          | .error e => .error e
          | .ok st' => matchRules P r (adel k.name tmp) sv st'
        | some .nothing =>
          match matchDict P [] c.slots st with
          | .error e => .error e
          | .ok st' => matchRules P r (adel k.name tmp) sv st'
        | Option.none =>
          match matchDict P c.slots c.slots st with
          | .error e => .error e
          | .ok st' => matchRules P r tmp sv st'
    else matchRules P r tmp sv st

/-- The loop over `slotvals` (productions.py:415-422). The entry of a retrieval is a list: indexing it with its elements is a
TypeError. -/
def substSlotVals (P : Py) (st : MatchSt) : SlotVals → Except PyErr SlotVals
  | [] => .ok []
  | (b, i) :: r =>
    match (match i with
      | .nothing => .ok i
      | .dict d => (mapSlots (substSlot P st.matched st.valued) d).map (fun d' => SlotInfo.dict (d'.map (fun p => (p.1, .vv p.2))))
      | .retr _ _ => .error .type : Except PyErr SlotInfo) with
    | .error e => .error e
    | .ok i' => match substSlotVals P st r with
      | .error e => .error e
      | .ok r' => .ok ((b, i') :: r')

/-! ## Collapsing two rules -/

/-- `merge_chunkparts` (utilities.py:229-245). -/
def mergeParts (a b : Slot) : VarVal :=
  let x := splitting a
  if x.values.truthy || optStrTruthy x.vars || !x.negvalues.isEmpty || !x.negvars.isEmpty then x else splitting b

/-- Merging the slots of the second chunk into the first (productions.py:151-168): `slotvals[buff][slot]` is never a chunk, so
`removeunused` always fails and the slots are merged in either case. -/
def mergeSlots (s1 : Slots) : Slots → Except PyErr (List (String × SlotArg))
  | [] => .ok []
  | (n, s) :: r =>
    match alook n s1 with
    | Option.none => .error .key
    | some t => match mergeSlots s1 r with
      | .error e => .error e
      | .ok r' => .ok ((n, .vv (mergeParts t s)) :: r')

/-- The first loop over the left-hand sides (productions.py:132-171): the merged left-hand side so far and what is left of the second one.
`ks` are the keys of the first rule still to be visited. -/
def collapseLhs1 (E : PyEnv) (reg : Reg) (sv : SlotVals) (retrieval : Option String) :
    List (Key × LVal) → List (Key × LVal) → Except PyErr (List (Key × LVal) × List (Key × LVal))
  | [], p2 => .ok ([], p2)
  | (k, v) :: r, p2 =>
    let rest (w : LVal) (q : List (Key × LVal)) : Except PyErr (List (Key × LVal) × List (Key × LVal)) :=
      match collapseLhs1 E reg sv retrieval r q with
      | .error e => .error e
      | .ok (l, q') => .ok ((k, w) :: l, q')
    if k.code = '?' then rest v p2
    else if k.code = '=' then
      match klook k p2 with
      | Option.none => rest v p2
      | some w =>
        match v, w with
        | .chunk c1, .chunk c2 =>
          if (alook k.name sv).isNone && retrieval == some k.name then rest v (kdel k p2)
          else
            match mergeSlots c1.slots c2.slots with
            | .error e => .error e
            | .ok d => match mkChunk E reg c1.typ d with
              | .error e => .error e
              | .ok c => rest (.chunk c) (kdel k p2)
        | _, _ => .error .attribute
    else .error .key

/-- The right-hand side of the first rule has an action on this buffer other than modifying or testing it (productions.py:182-184). -/
def actsOn (buff : String) : List (Key × RVal) → Except PyErr Bool
  | [] => .ok false
  | (k, _) :: r =>
    if k.code = '=' ∨ k.code = '?' then actsOn buff r
    else if k.code = '+' ∨ k.code = '!' ∨ k.code = '~' ∨ k.code = '@' ∨ k.code = '*' then
      if k.name = buff then .ok true else actsOn buff r
    else .error .key

/-- The second loop over the left-hand sides (productions.py:174-209). A query under a key whose value is a chunk is taken to be an
AttributeError. -/
def collapseLhs2 (E : PyEnv) (reg : Reg) (rhs1 : Except PyErr (List (Key × RVal))) (sv : SlotVals) (retrieval : Option String) :
    List (Key × LVal) → List (Key × LVal) → Except PyErr (List (Key × LVal))
  | [], p1 => .ok p1
  | (k, v) :: r, p1 =>
    if k.code = '?' then
      match rhs1.bind (actsOn k.name) with
      | .error e => .error e
      | .ok true => collapseLhs2 E reg rhs1 sv retrieval r p1
      | .ok false =>
        match v, klook k p1 with
        | .dict d, Option.none => collapseLhs2 E reg rhs1 sv retrieval r (kset k (.dict d) p1)
        | .dict d, some (.dict d1) =>
          collapseLhs2 E reg rhs1 sv retrieval r (kset k (.dict (d.foldl (fun m p => aset p.1 p.2 m) d1)) p1)
        | _, _ => .error .attribute
    else if k.code = '=' then
      match v with
      | .dict _ => .error .attribute
      | .chunk c2 =>
        if (alook k.name sv).isNone && retrieval == some k.name then collapseLhs2 E reg rhs1 sv retrieval r p1
        else
          match mkChunk E reg c2.typ (c2.slots.map (fun p => (p.1, slotArg p.2))) with
          | .error e => .error e
          | .ok c => collapseLhs2 E reg rhs1 sv retrieval r (kset k (.chunk c) p1)
    else .error .key

/-- What is merged into a slot of the second rule's action (productions.py:233-238). -/
def mergeAction (s1 : Slots) (p : String × Slot) : String × SlotArg :=
  match alook p.1 s1 with
  | some t => (p.1, .vv (mergeParts p.2 t))
  | Option.none => (p.1, slotArg p.2)

/-- The first loop over the right-hand sides (productions.py:217-241). -/
def collapseRhs2 (E : PyEnv) (reg : Reg) (sv : SlotVals) : List (Key × RVal) → Except PyErr (List (Key × RVal))
  | [] => .ok []
  | (k, v) :: r =>
    let rest (w : RVal) : Except PyErr (List (Key × RVal)) := (collapseRhs2 E reg sv r).map (fun l => (k, w) :: l)
    if k.code = '!' ∨ k.code = '~' ∨ k.code = '?' then rest v
    else if isChunkCode k.code then
      match alook k.name sv with
      | Option.none => rest v
      | some i =>
        match v with
        | .chunk c =>
          match mkChunk E reg c.typ (c.slots.map (mergeAction (match i with | .dict d => d | _ => []))) with
          | .error e => .error e
          | .ok c' => rest (.chunk c')
        | _ => .error .attribute
    else .error .key

/-- The second loop over the right-hand sides (productions.py:244-271). -/
def collapseRhs1 (E : PyEnv) (reg : Reg) (retrieval : Option String) : List (Key × RVal) → List (Key × RVal) →
    Except PyErr (List (Key × RVal))
  | [], p2 => .ok p2
  | (k, v) :: r, p2 =>
    if p2.any (fun p => p.1.name == k.name) then collapseRhs1 E reg retrieval r p2
    else if retrieval == some k.name then collapseRhs1 E reg retrieval r p2
    else if k.code = '!' ∨ k.code = '~' ∨ k.code = '?' then collapseRhs1 E reg retrieval r (kset k v p2)
    else if isChunkCode k.code then
      match v with
      | .chunk c =>
        match mkChunk E reg c.typ (c.slots.map (fun p => (p.1, slotArg p.2))) with
        | .error e => .error e
        | .ok c' => collapseRhs1 E reg retrieval r (kset k (.chunk c') p2)
      | _ => .error .attribute
    else .error .key

/-- `__collapse__(rule1, rule2, slotvals, retrieval)` (productions.py:121-273). -/
def collapse (E : PyEnv) (reg : Reg) (b1 b2 : Body) (sv : SlotVals) (retrieval : Option String) : Body :=
  ⟨b1.lhs.bind fun l1 => b2.lhs.bind fun l2 => (collapseLhs1 E reg sv retrieval l1 l2).bind fun p =>
      collapseLhs2 E reg b1.rhs sv retrieval p.2 p.1,
   b1.rhs.bind fun r1 => b2.rhs.bind fun r2 => (collapseRhs2 E reg sv r2).bind fun q => collapseRhs1 E reg retrieval r1 q⟩

/-! ## Which rules are not compiled -/

/-- `pro21[key2] == d`: dictionaries are equal if they have the same entries; a chunk is not equal to a dictionary (its hash is
compared with the hash of a dictionary, a TypeError). -/
def LVal.isDict (one : String × String) : LVal → Except PyErr Bool
  | .dict [p] => .ok (p == one)
  | .dict _ => .ok false
  | .chunk _ => .error .type

/-- A loop over the keys of a dictionary that returns True if one of them passes a test. -/
def anyKey {α : Type} (f : Key → α → Except PyErr Bool) : List (Key × α) → Except PyErr Bool
  | [] => .ok false
  | (k, v) :: r =>
    match f k v with
    | .error e => .error e
    | .ok true => .ok true
    | .ok false => anyKey f r

/-- `key2[0] == "+" and key2[1:] == buff` for some key of the second right-hand side (productions.py:347-349, 352-354, 360-362). -/
def requests (buff : String) (rhs : List (Key × RVal)) : Bool := rhs.any (fun p => decide (p.1 = ⟨'+', buff⟩))

/-- The queries of a motor or visual buffer (productions.py:355-357, 363-367), for visual buffers also tests. -/
def unsafeCond (visual : Bool) (buff : String) (k : Key) (v : LVal) : Except PyErr Bool :=
  if k = ⟨'?', buff⟩ then (v.isDict ("state", "busy")).map (fun b => !b)
  else .ok (visual && decide (k = ⟨'=', buff⟩))

/-- The query of a retrieval (productions.py:369-371). -/
def errorCond (buff : String) (k : Key) (v : LVal) : Except PyErr Bool :=
  if k = ⟨'?', buff⟩ then v.isDict ("state", "error") else .ok false

/-- The body of the loop of `__check_valid_compilation__` (productions.py:343-371) for one key of the first right-hand side. -/
def unsafeKey (bufs : List (String × CBuf)) (lhs2 : List (Key × LVal)) (rhs2 : List (Key × RVal)) (k : Key) : Except PyErr Bool :=
  if k.code = '+' then
    let cls := (alook k.name bufs).map CBuf.cls
    if requests k.name rhs2 && cls != some .decmem then .ok true
    else match cls with
      | some .motor => if requests k.name rhs2 then .ok true else anyKey (unsafeCond false k.name) lhs2
      | some .visual | some .visualLocation =>
        if requests k.name rhs2 then .ok true else anyKey (unsafeCond true k.name) lhs2
      | some .decmem => anyKey (errorCond k.name) lhs2
      | _ => .ok false
  else .ok false

/-- `__check_valid_compilation__` (productions.py:329-374). -/
def checkCompilation (bufs : List (String × CBuf)) (b1 b2 : Body) : Except PyErr Bool :=
  b1.lhs.bind fun _ => b1.rhs.bind fun r1 => b2.lhs.bind fun l2 => b2.rhs.bind fun r2 =>
    anyKey (fun k _ => unsafeKey bufs l2 r2 k) r1

/-! ## Compiling -/

/-- `modified_actrvariables`, `retrieval` and whether a retrieved chunk is still in its buffer (productions.py:386-403). -/
structure Scan where
  used : List String
  retrieval : Option String

/-- The variables of the slots that are not empty (productions.py:398-402). -/
def usedVars (d : Slots) : List String :=
  d.filterMap (fun p => match p.2 with | .empty => Option.none | .vv x => x.vars)

/-- The loop over `slotvals` (productions.py:391-402): nothing if compilation is blocked. -/
def scanSlotVals (bufs : List (String × CBuf)) : SlotVals → Scan → Except PyErr (Option Scan)
  | [], sc => .ok (some sc)
  | (b, .nothing) :: r, sc => scanSlotVals bufs r sc
  | (_, .dict d) :: r, sc => scanSlotVals bufs r { sc with used := sc.used ++ usedVars d }
  | (b, .retr _ _) :: r, sc =>
    match alook b bufs with
    | Option.none => .error .key
    | some f => if f.full then .ok Option.none else scanSlotVals bufs r { sc with retrieval := some b }

/-- Equality of dictionaries: as many entries, and equal values for equal keys. -/
def dictEq {α : Type} (f : α → α → Except PyErr Bool) (a b : List (Key × α)) : Except PyErr Bool :=
  if a.length = b.length then go b a else .ok false
where
  go (b : List (Key × α)) : List (Key × α) → Except PyErr Bool
    | [] => .ok true
    | (k, v) :: r =>
      match klook k b with
      | Option.none => .ok false
      | some w => match f v w with
        | .error e => .error e
        | .ok true => go b r
        | .ok false => .ok false

/-- Equality of dictionaries with string keys and values. -/
def sdictEq (a b : List (String × String)) : Bool :=
  decide (a.length = b.length) && a.all (fun p => alook p.1 b == some p.2)

/-- `==` of values of a left-hand side; the hash of a dictionary is a TypeError. -/
def LVal.eq (H : PyHash) : LVal → LVal → Except PyErr Bool
  | .chunk a, .chunk b => .ok (a.eq H BV.init b)
  | .dict a, .dict b => .ok (sdictEq a b)
  | _, _ => .error .type

/-- `==` of values of a right-hand side. Simplification: a chunk compared with something else is a TypeError also if that is None or
a list of commands. -/
def RVal.eq (H : PyHash) : RVal → RVal → Except PyErr Bool
  | .chunk a, .chunk b => .ok (a.eq H BV.init b)
  | .tests a, .tests b => .ok (sdictEq a b)
  | .cmds a, .cmds b => .ok (decide (a = b))
  | .nothing, .nothing => .ok true
  | .chunk _, _ => .error .type
  | _, .chunk _ => .error .type
  | _, _ => .ok false

/-- `next(pr1) == next(pr2) and next(pr1) == next(pr2)` (productions.py:436). -/
def bodyEq (H : PyHash) (a b : Body) : Except PyErr Bool :=
  a.lhs.bind fun la => b.lhs.bind fun lb => (dictEq (LVal.eq H) la lb).bind fun e =>
    if e then a.rhs.bind fun ra => b.rhs.bind fun rb => dictEq (RVal.eq H) ra rb else .ok false

/-- The name tried in turn `idx` (productions.py:428-431). -/
def compiledName (r1 r2 : String) (idx : ℕ) : String :=
  if idx > 0 then r1 ++ " and " ++ r2 ++ " " ++ toString idx else r1 ++ " and " ++ r2

/-- What `compile_rules` returns: `(False, False)`, or a name and whether the rule was created or re-created. -/
inductive Compiled where
  | blocked
  | made (name : String) (recreated : Bool)

/-- The loop looking for a name (productions.py:424-446). `fuel` bounds the number of turns; nothing is returned if it is used up, which
does not happen with more turns than there are rules. -/
def nameLoop (H : PyHash) (p : UParams) (r1 r2 : String) (u1 : ℚ) (new : Body) (rules : CRules) :
    ℕ → ℕ → Option (CRules × Except PyErr Compiled)
  | 0, _ => Option.none
  | fuel + 1, idx =>
    let name := compiledName r1 r2 idx
    match alook name rules with
    | some r =>
      match bodyEq H r.body new with
      | .error e => some (rules, .error e)
      | .ok true =>
        some (if p.utilityLearning then aset name { r with utility := round4 (r.utility + p.alpha * (u1 - r.utility)) } rules
          else rules, .ok (.made name true))
      | .ok false => nameLoop H p r1 r2 u1 new rules fuel (idx + 1)
    | Option.none => some (aset name ⟨new, 0, Option.none⟩ rules, .ok (.made name false))

/-- The new rule (productions.py:376-422), nothing if compilation is blocked. -/
def newRule (P : Py) (reg : Reg) (name2 : String) (b1 b2 : Body) (sv : SlotVals) (bufs : List (String × CBuf)) :
    Except PyErr (Option Body) :=
  (checkCompilation bufs b1 b2).bind fun stop =>
  if stop then .ok Option.none
  else (scanSlotVals bufs sv ⟨[], Option.none⟩).bind fun sc =>
  match sc with
  | Option.none => .ok Option.none
  | some sc =>
    let b2' := renameBody P.toPyEnv reg name2 sc.used b2
    b2'.lhs.bind fun l2 => (matchRules P l2 sv sv ⟨[], []⟩).bind fun (sv', st) =>
    (substSlotVals P st sv').map fun sv'' =>
      some (collapse P.toPyEnv reg (substBody P reg st.matched st.valued b1) (substBody P reg st.matched st.valued b2') sv''
        sc.retrieval)

/-- `compile_rules` (productions.py:376-448): the rules afterwards and the result. Rules that do not exist: `self[name]` is None,
a TypeError. -/
def compileRules (P : Py) (reg : Reg) (p : UParams) (rules : CRules) (r1 r2 : String) (sv : SlotVals) (bufs : List (String × CBuf)) :
    CRules × Except PyErr Compiled :=
  match alook r1 rules, alook r2 rules with
  | some x1, some x2 =>
    match newRule P reg r2 x1.body x2.body sv bufs with
    | .error e => (rules, .error e)
    | .ok Option.none => (rules, .ok .blocked)
    | .ok (some new) => (nameLoop P.H p r1 r2 x1.utility new rules (rules.length + 1) 0).getD (rules, .error .runtime)
  | _, _ => (rules, .error .type)

end Verif
