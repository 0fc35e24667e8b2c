import Verif.Spec.Machine
import Verif.Spec.Rules
/-! # Specification of the cycle of the procedural module -/
namespace Verif.Spec
open Verif

/-- What only the procedural module uses: rules, their record, its variables. Everything else may be changed by others, but no
buffer is created or replaced by one of another class. -/
structure Private (w w' : Mach) : Prop where
  shape : w'.bufs.map (fun p => (p.1, p.2.cls)) = w.bufs.map (fun p => (p.1, p.2.cls))
  bv : w'.bv = w.bv
  rules : w'.rules = w.rules
  ordered : w'.ordered = w.ordered
  used : w'.used = w.used
  usedName : w'.usedName = w.usedName
  lastRule : w'.lastRule = w.lastRule
  compile : w'.compile = w.compile

/-- Others change neither the private part nor the buffers as conditions see them. -/
structure Still (w w' : Mach) : Prop where
  priv : Private w w'
  faces : w'.faces = w.faces

/-- The report of the procedural module for time `q` that `a`. -/
def Reports (q : ℚ) (a : Act) (x : Mach × YV) : Prop := ∃ e, x.2 = .ev e ∧ e.proc = "PROCEDURAL" ∧ AtTime q e ∧ e.act = a

/-- A report of a selection. -/
def IsSelection (x : Mach × YV) : Prop := ∃ e n, x.2 = .ev e ∧ e.act = .selected n

/-- A report that a rule has fired or has been stopped. -/
def IsOutcome (x : Mach × YV) : Prop := ∃ e n, x.2 = .ev e ∧ (e.act = .fired n ∨ e.act = .stopped n)

/-- The test of the conditions of rule `n` has the result `r`. -/
def TestOf (H : PyHash) (bufs : Faces) (rules : CRules) (n : String) (r : Except PyErr (Option BV)) : Prop :=
  ∃ rule, alook n rules = some rule ∧ ((∃ lhs, rule.body.lhs = .ok lhs ∧ lhsTest H bufs lhs BV.init = r) ∨ ∃ x, rule.body.lhs = .error x ∧ r = .error x)

/-- The conditions hold, with these bindings. -/
def Holds (H : PyHash) (bufs : Faces) (rules : CRules) (n : String) (bv : BV) : Prop := TestOf H bufs rules n (.ok (some bv))

/-- They do not. -/
def Fails (H : PyHash) (bufs : Faces) (rules : CRules) (n : String) : Prop := TestOf H bufs rules n (.ok Option.none)

/-- Nothing matched: NO RULE FOUND at the time of conflict resolution. -/
def NothingFound (C : Cfg) (t : ℚ) (l : List (Mach × YV)) : Prop :=
  ∃ x y z, l = x :: y :: z ∧ Reports t .conflict x ∧ Reports t .noRule y ∧ (z = [] ∨ ∃ p, z = [(p, .procs)]) ∧
    ∀ n ∈ y.1.ordered, Fails C.P.H y.1.faces y.1.rules n

/-- Rule `n`, which matched, was selected in the state `s`, and `l` is what happened from the time of firing on. -/
def Selected (C : Cfg) (t : ℚ) (l0 : List (Mach × YV)) (n : String) (s : Mach) (l : List (Mach × YV)) : Prop :=
  ∃ x y u, l0 = x :: y :: u :: l ∧ Reports t .conflict x ∧ Reports t (.selected n) y ∧ Reports (t + C.ruleFiring) .unknown u ∧ y.1 = s ∧
    n ∈ s.ordered ∧ ∃ bv, Holds C.P.H s.faces s.rules n bv

/-- Rule `n` was selected in the state `s`, but the process was not resumed up to the outcome, or the compilation of the two rules
used before failed after the conditions had been found to hold. -/
def Unfinished (C : Cfg) (t : ℚ) (l : List (Mach × YV)) (e : GEnd Mach Unit) (n : String) (s : Mach) : Prop :=
  ∃ x y u, l = x :: y :: u ∧ Reports t .conflict x ∧ Reports t (.selected n) y ∧ y.1 = s ∧ n ∈ s.ordered ∧ (∃ bv, Holds C.P.H s.faces s.rules n bv) ∧
    ((e = .cut ∧ (u = [] ∨ ∃ u0 c, u = u0 :: c ∧ Reports (t + C.ruleFiring) .unknown u0 ∧
        (c = [] ∨ ∃ c0 re m, c = [c0] ∧ Reports (t + C.ruleFiring) (.compiled re m) c0))) ∨
     (∃ w' err u0, e = .raise w' err ∧ u = [u0] ∧ Reports (t + C.ruleFiring) .unknown u0 ∧ (∃ bv, Holds C.P.H w'.faces s.rules n bv) ∧
        C.compilation = true ∧ s.compile ≠ Option.none))

/-- Exactly one of RULE FIRED and RULE STOPPED FROM FIRING is reported for time `q`: fired if the conditions hold now (`v` is the
state now), with the bindings of this moment, and stopped if they do not. Only a report of compilation may come before. -/
def OneOutcome (C : Cfg) (q : ℚ) (n : String) (s : Mach) (l : List (Mach × YV)) : Prop :=
  ∃ mid o rest v, l = mid ++ o :: rest ∧ (∀ x ∈ mid ++ rest, ¬ IsOutcome x ∧ ¬ IsSelection x) ∧ (∃ r, mid ++ [o] = v :: r) ∧
    ((∃ bv, Holds C.P.H v.1.faces s.rules n bv ∧ Reports q (.fired n) o ∧ o.1.bv = bv ∧ ∀ x ∈ mid, ∃ re m, Reports q (.compiled re m) x) ∨
     (Fails C.P.H v.1.faces s.rules n ∧ Reports q (.stopped n) o ∧ mid = []))

end Verif.Spec
