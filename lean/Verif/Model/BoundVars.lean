import Verif.Model.ChunkDict
/-!
# Resolving the slots of a right-hand side

Models `check_bound_vars` (utilities.py:262-311).
-/
namespace Verif

/-- Everything that depends on Python itself: hashing, legal names, and the order of tuples made from sets of strings
(`ord`) and of slot values (`vord`). -/
structure Py extends PyEnv where
  H : PyHash
  vord : List Val → List Val
  vperm : ∀ l, (vord l).Perm l

/-- The local variables of `check_bound_vars`: `temp_result` (none while it is unbound), `result`, `neg_result`. -/
structure CbvState where
  temp : Option Val
  result : Val
  neg : List Val

def CbvState.init : CbvState := ⟨Option.none, .none, []⟩

/-- `v in {VISIONGREATER, VISIONSMALLER}` (utilities.py:296). -/
def isRelation (H : PyHash) (v : Val) : Bool := keyEq H (.str ">") v || keyEq H (.str "<") v

/-- `"".join(sorted([a, b], reverse=True))` (utilities.py:297). Whatever the comparison of other objects does, joining
anything but strings is a TypeError. -/
def joinDesc : Val → Val → Except PyErr Val
  | .str a, .str b => .ok (.str (if a < b then b ++ a else a ++ b))
  | _, _ => .error .type

/-- The second half of the loop body (utilities.py:296-304). While `temp_result` is unbound, `result` is still None and
nothing happens. -/
def cbvCombine (H : PyHash) (st : CbvState) : Except PyErr CbvState :=
  match st.temp with
  | Option.none => .ok st
  | some t =>
    if (st.result.truthy && isRelation H t) || isRelation H st.result then
      match joinDesc t st.result with
      | .ok v => .ok { st with result := v }
      | .error e => .error e
    else if st.result.truthy && !pyEq H t st.result then .error .actr
    else .ok { st with result := t }

/-- The field `values` (utilities.py:278-279). -/
def cbvValues (x : VarVal) (st : CbvState) : CbvState :=
  if x.values.truthy then { st with temp := some x.values } else st

/-- The field `variables` (utilities.py:271-277). -/
def cbvVars (bv : BV) (x : VarVal) (st : CbvState) : Except PyErr CbvState :=
  if optStrTruthy x.vars then
    match bv.get (x.vars.getD "") with
    | some v => .ok { st with temp := some v }
    | Option.none => .error .actr
  else .ok st

/-- The field `negvalues` (utilities.py:280-285). -/
def cbvNegvalues (H : PyHash) (negImpossible : Bool) (x : VarVal) (st : CbvState) : Except PyErr CbvState :=
  if x.negvalues.isEmpty then .ok st
  else if negImpossible then .error .actr
  else .ok { st with neg := x.negvalues.foldl (addVal H) st.neg }

/-- The loop over the negated variables (utilities.py:290-295). The message of the ACTRError mentions `var`, which is
unbound unless there was a positive variable. -/
def cbvNegLoop (H : PyHash) (bv : BV) (varBound : Bool) : List Val → List String → Except PyErr (List Val)
  | neg, [] => .ok neg
  | neg, y :: r =>
    match bv.get y with
    | some v => cbvNegLoop H bv varBound (addVal H neg v) r
    | Option.none => .error (if varBound then .actr else .unboundLocal)

/-- The field `negvariables` (utilities.py:286-295). -/
def cbvNegvars (H : PyHash) (bv : BV) (negImpossible : Bool) (x : VarVal) (st : CbvState) : Except PyErr CbvState :=
  if x.negvars.isEmpty then .ok st
  else if negImpossible then .error .actr
  else match cbvNegLoop H bv (optStrTruthy x.vars) st.neg x.negvars with
    | .ok l => .ok { st with neg := l }
    | .error e => .error e

/-- The end of `check_bound_vars` (utilities.py:305-311): if `temp_result` is bound to something falsy, `returned_tuple` is
never assigned. -/
def cbvFinish (P : Py) (st : CbvState) : Except PyErr VarVal :=
  match st.temp with
  | some t => if t.truthy then .ok ⟨st.result, Option.none, P.vord st.neg, []⟩ else .error .unboundLocal
  | Option.none => .ok ⟨.none, Option.none, P.vord st.neg, []⟩

/-- `check_bound_vars(actrvariables, elem, negative_impossible)` (utilities.py:262-311). `actrvariables` is a dictionary
(never None); the fields are visited in the order values, variables, negvalues, negvariables (utilities.py:38). -/
def checkBoundVars (P : Py) (bv : BV) (negImpossible : Bool) (elem : Slot) : Except PyErr VarVal :=
  let x := splitting elem
  (cbvCombine P.H (cbvValues x CbvState.init)).bind fun st =>
  (cbvVars bv x st).bind fun st => (cbvCombine P.H st).bind fun st =>
  (cbvNegvalues P.H negImpossible x st).bind fun st => (cbvCombine P.H st).bind fun st =>
  (cbvNegvars P.H bv negImpossible x st).bind fun st => (cbvCombine P.H st).bind fun st =>
  cbvFinish P st

end Verif
