import Verif.Model.Modules
/-!
# The procedural module

Models `procedural_process`, `compile_rules` and `update` of class `ProductionRules` (productions.py:482-598).
-/
namespace Verif

/-- The name of the procedural module (utilities.py:96). -/
def procName : String := "PROCEDURAL"

/-! ## Conflict resolution -/

/-- The loop over the rules (productions.py:498-512); like `selectLoop`, for rules whose bodies may raise exceptions when they are
called. -/
def selectC (H : PyHash) (bufs : Faces) (p : UParams) (rules : CRules) (bv : BV) (draws : ℕ → ℚ) :
    ℕ → List String → Option (String × ℚ) → Except PyErr (Option (String × ℚ))
  | _, [], best => .ok best
  | k, name :: r, best =>
    match alook name rules with
    | Option.none => .error .key
    | some rule =>
      match rule.body.lhs with
      | .error e => .error e
      | .ok lhs =>
        match utilityDraw p (draws k) with
        | .error e => .error e
        | .ok nz =>
          if (match best with | some (_, m) => decide (rule.utility + nz < m) | Option.none => false) then
            selectC H bufs p rules bv draws (k + 1) r best
          else
            match lhsTest H bufs lhs bv with
            | .error e => .error e
            | .ok Option.none => selectC H bufs p rules bv draws (k + 1) r best
            | .ok (some _) =>
              if !p.subsymbolic || p.utilityNoise = 0 then .ok (some (name, rule.utility + nz))
              else selectC H bufs p rules bv draws (k + 1) r (some (name, rule.utility + nz))

/-- productions.py:490-512: the name and the body of the rule that is selected. -/
def selectIn (C : Cfg) (w : Mach) : Mach × Except PyErr (Option (String × CRule)) :=
  let w' := { w with usedName := w.ordered.getLast?, extraTests := [], lastSlots := w.curSlots, tick := w.tick + 1 }
  match selectC C.P.H w.faces C.up w.rules w.bv (C.udraws w.tick) 0 w.ordered Option.none with
  | .error e => (w', .error e)
  | .ok Option.none => (w', .ok Option.none)
  | .ok (some (n, _)) => match alook n w.rules with
    | Option.none => (w', .error .key)
    | some rule => ({ w' with usedName := some n }, .ok (some (n, rule)))

/-! ## Learning -/

/-- Set the utility of one rule. -/
def setUtilityC (name : String) (f : ℚ → ℚ) (rules : CRules) : CRules :=
  match alook name rules with
  | some r => aset name { r with utility := f r.utility } rules
  | Option.none => rules

/-- `modify_utilities` (utilities.py:402-409). -/
def modifyUtilitiesC (alpha time reward : ℚ) (used : Used) (rules : CRules) : CRules :=
  used.foldl (fun rs p => p.2.foldl (fun rs t => setUtilityC p.1 (learn alpha reward time t) rs) rs) rules

/-- productions.py:526-528. -/
def rewardStep (C : Cfg) (name : String) (t : ℚ) (w : Mach) : Mach :=
  if C.up.utilityLearning then
    match (alook name w.rules).bind CRule.reward with
    | some r => { w with rules := modifyUtilitiesC C.up.alpha t r w.used w.rules, used := [] }
    | Option.none => w
  else w

/-! ## Compilation -/

/-- `{key: None for key in self.buffers}` (productions.py:467, 533, 544). -/
def Mach.noSlots (w : Mach) : SlotVals := w.bufs.map (fun p => (p.1, .nothing))

/-- `compile_rules` (productions.py:552-562): the rule that was made, if any. -/
def compileIn (C : Cfg) (w : Mach) : Mach × Except PyErr (Option (String × Bool)) :=
  match C.compilation, w.compile with
  | true, some (r1, r2, sv) =>
    let r := compileRules C.P w.reg C.up w.rules r1 r2 sv w.cbufs
    match r.2 with
    | .error e => ({ w with rules := r.1 }, .error e)
    | .ok .blocked => ({ w with rules := r.1 }, .ok Option.none)
    | .ok (.made n re) => ({ w with rules := r.1, ordered := w.ordered ++ [n] }, .ok (some (n, re)))
  | _, _ => (w, .ok Option.none)

/-! ## The right-hand side -/

/-- `ordering_dict` (productions.py:569). -/
def codeRank (c : Char) : Option ℕ :=
  if c = '!' then some 0 else if c = '?' then some 0 else if c = '=' then some 1 else if c = '@' then some 2
  else if c = '*' then some 3 else if c = '+' then some 4 else if c = '~' then some 5 else Option.none

/-- productions.py:570-574: the actions sorted by their signs, otherwise in the order in which they were written. A sign that is not
known is an ACTRError. -/
def sortRhs (rhs : List (Key × RVal)) : Except PyErr (List (Key × RVal)) :=
  if rhs.all (fun p => (codeRank p.1.code).isSome) then
    .ok ((List.range 6).flatMap (fun r => rhs.filter (fun p => codeRank p.1.code = some r)))
  else .error .actr

/-- `self.procs.append((name, generator))`. -/
def Mach.queue (w : Mach) (name : String) (d : Desc) : Mach :=
  { w with procs := w.procs ++ [.gen name w.nextId d], nextId := w.nextId + 1 }

/-- `_INTERRUPTIBLE` (utilities.py:106): the actions that are only put into the list of processes. -/
def interruptible (c : Char) : Bool := c == '+' || c == '*'

/-- The generator object of an action that is only queued. -/
def queuedDesc (k : Key) (v : RVal) (bv : BV) (t : ℚ) : Desc :=
  if k.code = '+' then .retrieveorset k.name v bv t else .modifyRequest k.name v bv t

/-- The generator of an action that is carried out at once (`_RHSCONVENTIONS`, utilities.py:98). -/
def immediate (C : Cfg) (k : Key) (v : RVal) (bv : BV) (t : ℚ) : GenM Unit :=
  if k.code = '?' then genExtraTest k.name v t
  else if k.code = '!' then genExecute C k.name v t
  else if k.code = '=' then genModify C k.name v bv t
  else if k.code = '@' then genOverwrite C k.name v bv t
  else genClear C k.name v t true

/-- `temp_actrvariables.pop("=" + name)`. -/
def BV.popVar (bv : BV) (n : String) : BV := { bv with pos := bv.pos.filter (fun p => p.1 ≠ n) }

/-- The loop of `update` (productions.py:575-591); returns the variables that are left. -/
def updateLoop (C : Cfg) (t : ℚ) : List (Key × RVal) → BV → GenM BV
  | [], temp => GenM.pure temp
  | (k, v) :: r, temp => do
    .act (fun w => match w.buf k.name with
      | some _ => (w, .ok ())
      | Option.none => (w, .error .key))
    let bv ← GenM.get Mach.bv
    .set (·.setState k.name .busy)
    if interruptible k.code then .set (fun w => w.queue k.name (queuedDesc k v bv t))
    else immediate C k v bv t
    updateLoop C t r (temp.popVar k.name)

/-- The names `key[1:]` of the variables (productions.py:596). Simplification: the variables "=x" come before the "~=x". -/
def BV.keyNames (bv : BV) : List String := bv.pos.map Prod.fst ++ bv.neg.map (fun p => "=" ++ p.1)

/-- Strict harvesting (productions.py:594-598). -/
def harvestAll (t : ℚ) : List String → Mach → Mach
  | [], w => w
  | n :: r, w => harvestAll t r (match w.buf n with
    | some _ => w.queue n (.clear n w.bv t)
    | Option.none => w)

/-- `update` (productions.py:564-598). -/
def genUpdate (C : Cfg) (rhs : List (Key × RVal)) (t : ℚ) : GenM Unit := do
  let temp ← GenM.get Mach.bv
  let sorted ← GenM.lift (sortRhs rhs)
  let left ← updateLoop C t sorted temp
  .set (fun w => if C.strict then harvestAll t left.keyNames w else w)

/-! ## The process -/

/-- `self.procs.remove(PROCEDURAL)`: the first one. -/
def removeProcedural : List PItem → List PItem
  | [] => []
  | .procedural :: r => r
  | p :: r => p :: removeProcedural r

/-- productions.py:536-545: the actions of the rule that fired. -/
def genRhs (C : Cfg) (name : String) (rule : CRule) (t : ℚ) : GenM Unit := do
  let rhs ← GenM.lift rule.body.rhs
  genUpdate C rhs t
  .set (fun w => match w.lastRule with
    | some l => if l ≠ name then { w with compile := some (l, name, w.lastSlots), lastSlots := w.noSlots, lastRule := some name }
      else { w with lastRule := some name }
    | Option.none => { w with lastRule := some name })

/-- productions.py:526-545: from the firing of the rule on. -/
def genFire (C : Cfg) (name : String) (rule : CRule) (t : ℚ) : GenM Unit := do
  .set (rewardStep C name t)
  let comp ← GenM.act (compileIn C)
  .set (fun w => { w with compile := Option.none })
  match comp with
  | some (n, re) => .event t procName (.compiled re n)
  | Option.none => Pure.pure ()
  .set (fun w => { w with curSlots := w.noSlots })
  .event t procName (.fired name)
  genRhs C name rule t

/-- productions.py:521-549: the selected rule is tested again, and fires or is stopped. -/
def genTest (C : Cfg) (name : String) (rule : CRule) (t : ℚ) : GenM Unit := do
  let lhs ← GenM.lift rule.body.lhs
  let m ← GenM.act (fun w => (w, lhsTest C.P.H w.faces lhs w.bv))
  match m with
  | Option.none => .event t procName (.stopped name)
  | some bv => do
    .set (fun w => { w with bv := bv })
    genFire C name rule t

/-- productions.py:513-549: from the selection of the rule on. -/
def genSelected (C : Cfg) (name : String) (rule : CRule) (start : ℚ) : GenM Unit := do
  .set (fun w => { w with used := noteUse name start w.used })
  .event start procName (.selected name)
  .event (start + C.ruleFiring) procName .unknown
  genTest C name rule (start + C.ruleFiring)

/-- `procedural_process` (productions.py:482-550). Simplification: no rule has the empty string as its name (line 513). -/
def genProcedural (C : Cfg) (start : ℚ) : GenM Unit := do
  .set (fun w => { w with procs := w.procs ++ [.procedural], bv := BV.init })
  .event start procName .conflict
  let sel ← GenM.act (selectIn C)
  match sel with
  | Option.none => do
    .set (fun w => { w with procs := removeProcedural w.procs })
    .event start procName .noRule
  | some (name, rule) => genSelected C name rule start
  .yield .procs

end Verif
