import Verif.Model.World
/-!
# Testing and selecting rules, learning utilities

Models `LHStest`, `test`, `query` (productions.py:966-1021), conflict resolution (productions.py:462-520) and
`modify_utilities` (utilities.py:402-409).
-/
namespace Verif

/-- `test` (productions.py:984-1006): nothing for `(False, None)`, the bindings for `(True, bindings)`. -/
def testBuffer (H : PyHash) (bufs : Faces) (name : String) (p : Chunk) (bv : BV) : Option BV :=
  match alook name bufs with
  | Option.none => Option.none
  | some b =>
    match b.data with
    | [] => Option.none
    | d :: _ =>
      if (match bv.get name with | some v => !pyEq H d.val v | Option.none => false) then Option.none
      else
        match p.le H bv d with
        | (true, bv') => some (bv'.bind name d.val)
        | (false, _) => Option.none

/-- `test_buffer` (buffers.py:86-94). -/
def BufFace.testContent (b : BufFace) (inquiry : String) : Bool :=
  if b.data.isEmpty then inquiry == "empty" else inquiry == "full"

/-- `query` (productions.py:1008-1021) with `test` of the buffers (`getattr(self, state) == inquiry`, e.g. goals.py:74-78).
An unknown buffer is None, an unknown attribute does not exist: AttributeError in both cases. -/
def queryBuffer (b : Option BufFace) : List (String × String) → Except PyErr Bool
  | [] => .ok true
  | (a, v) :: r =>
    match b with
    | Option.none => .error .attribute
    | some f =>
      if a = "buffer" then
        if f.testContent v then queryBuffer b r else .ok false
      else
        match alook a f.attrs with
        | Option.none => .error .attribute
        | some s => if s = v then queryBuffer b r else .ok false

/-- One turn of the loop of `LHStest` (productions.py:970-979): nothing if the condition fails, otherwise the bindings. A value of
the wrong kind (a dictionary to be matched, a chunk to be queried) is an AttributeError. -/
def testCond (H : PyHash) (bufs : Faces) (k : Key) (v : LVal) (bv : BV) : Except PyErr (Option BV) :=
  if k.code = '=' then
    match v with
    | .chunk p => .ok (testBuffer H bufs k.name p bv)
    | .dict _ => .error .attribute
  else if k.code = '?' then
    match v with
    | .chunk _ => .error .attribute
    | .dict d =>
      match queryBuffer (alook k.name bufs) d with
      | .error e => .error e
      | .ok true => .ok (some bv)
      | .ok false => .ok Option.none
  else .error .actr

/-- `LHStest(dictionary, actrvariables)` (productions.py:966-982): nothing for False, the bindings for True. -/
def lhsTest (H : PyHash) (bufs : Faces) : List (Key × LVal) → BV → Except PyErr (Option BV)
  | [], bv => .ok (some bv)
  | (k, v) :: r, bv =>
    match testCond H bufs k v bv with
    | .error e => .error e
    | .ok Option.none => .ok Option.none
    | .ok (some bv') => lhsTest H bufs r bv'

/-- `sorted(rules.keys(), key=lambda x: rules[x]['utility'], reverse=True)` (productions.py:465): a stable sort. -/
def orderedNames (rules : Rules) : List String :=
  (rules.mergeSort (fun a b => decide (b.2.utility ≤ a.2.utility))).map Prod.fst

/-- The parameters conflict resolution looks at. -/
structure UParams where
  subsymbolic : Bool
  utilityNoise : ℚ
  utilityLearning : Bool
  alpha : ℚ

/-- Noise is on: conflict resolution draws a random number for every rule. -/
def UParams.noisy (p : UParams) : Bool := p.subsymbolic && !decide (p.utilityNoise = 0)

/-- The noise added to one utility (productions.py:505-507; `calculate_instantaneous_noise`, utilities.py): `draw` is what
`numpy.random.logistic` returns. -/
def utilityDraw (p : UParams) (draw : ℚ) : Except PyErr ℚ :=
  if p.subsymbolic then
    if p.utilityNoise < 0 then .error .assertion else if p.utilityNoise = 0 then .ok 0 else .ok draw
  else .ok 0

/-- The loop over the rules (productions.py:498-512) from position `k` on; `best` is the rule found so far with its utility
(`used_rulename`, `max_utility`). -/
def selectLoop (H : PyHash) (bufs : Faces) (p : UParams) (rules : Rules) (draws : ℕ → ℚ) :
    ℕ → List String → Option (String × ℚ) → Except PyErr (Option (String × ℚ))
  | _, [], best => .ok best
  | k, name :: r, best =>
    match alook name rules with
    | Option.none => .error .key
    | some rule =>
      match utilityDraw p (draws k) with
      | .error e => .error e
      | .ok nz =>
        if (match best with | some (_, m) => decide (rule.utility + nz < m) | Option.none => false) then
          selectLoop H bufs p rules draws (k + 1) r best
        else
          match lhsTest H bufs rule.lhs BV.init with
          | .error e => .error e
          | .ok Option.none => selectLoop H bufs p rules draws (k + 1) r best
          | .ok (some _) =>
            if !p.subsymbolic || p.utilityNoise = 0 then .ok (some (name, rule.utility + nz))
            else selectLoop H bufs p rules draws (k + 1) r (some (name, rule.utility + nz))

/-- Conflict resolution: the rule selected, with its utility. -/
def conflictResolution (H : PyHash) (bufs : Faces) (p : UParams) (rules : Rules) (ordered : List String) (draws : ℕ → ℚ) :
    Except PyErr (Option (String × ℚ)) := selectLoop H bufs p rules draws 0 ordered Option.none

/-- `self.rules.used_rulenames` (productions.py:516): for each rule the times at which it was selected. -/
abbrev Used := List (String × List ℚ)

/-- `used_rulenames.setdefault(name, []).append(time)` (productions.py:516). -/
def noteUse (name : String) (t : ℚ) (used : Used) : Used := aset name ((alook name used).getD [] ++ [t]) used

/-- Set the utility of one rule. -/
def setUtility (name : String) (f : ℚ → ℚ) (rules : Rules) : Rules :=
  match alook name rules with
  | some r => aset name { r with utility := f r.utility } rules
  | Option.none => rules

/-- `round(U + alpha*(reward - (time - t) - U), 4)` (utilities.py:408-409). -/
def learn (alpha reward time t u : ℚ) : ℚ := round4 (u + alpha * (reward - (time - t) - u))

/-- `modify_utilities` (utilities.py:402-409). Every name in the record is the name of a rule. -/
def modifyUtilities (alpha time reward : ℚ) (used : Used) (rules : Rules) : Rules :=
  used.foldl (fun rs p => p.2.foldl (fun rs t => setUtility p.1 (learn alpha reward time t) rs) rs) rules

end Verif
