import Verif.Model.Simulation
/-! # Specification: how many requests there are, and how many answers (property C76) -/
namespace Verif.Spec
open Verif

/-- Reports with which a module answers a request: what was retrieved or that nothing was, a chunk that was made, a key that was pressed, a location or an
object that was seen. -/
def IsAnswer : Act → Bool
  | .retrieved _ => true
  | .created _ => true
  | .pressed _ => true
  | .encodedLoc _ => true
  | .encoded _ => true
  | _ => false

/-- How many answers the module of the buffer has reported. -/
def answersOf (buffer : String) (reports : List (ℚ × Ev)) : ℕ := reports.countP (fun x => x.2.proc == buffer && IsAnswer x.2.act)

/-- How many actions `+buffer>` the rule with this name has. -/
def requestsIn (rules : CRules) (buffer rule : String) : ℕ :=
  match alook rule rules with
  | Option.none => 0
  | some r => match r.body.rhs with
    | .error _ => 0
    | .ok rhs => rhs.countP (fun p => decide (p.1 = ⟨'+', buffer⟩))

/-- How many such actions this is a report of. -/
def requestsBy (rules : CRules) (buffer : String) (e : Ev) : ℕ :=
  match e.act with
  | .fired rule => if e.proc = "PROCEDURAL" then requestsIn rules buffer rule else 0
  | _ => 0

/-- How many such actions the rules have that fired, as reported; a rule that fired twice counts twice. -/
def requestsOf (rules : CRules) (buffer : String) (reports : List (ℚ × Ev)) : ℕ := (reports.map (fun x => requestsBy rules buffer x.2)).sum

/-- This is a report that a rule with such an action fired. -/
def FiresFor (rules : CRules) (buffer : String) (e : Ev) : Prop :=
  match e.act with
  | .fired rule => e.proc = "PROCEDURAL" ∧ 0 < requestsIn rules buffer rule
  | _ => False

instance (rules : CRules) (buffer : String) (e : Ev) : Decidable (FiresFor rules buffer e) := by
  unfold FiresFor
  split <;> infer_instance

/-- The movements of the eyes, as EMMA computes them, take no negative time. -/
def MovesForward (C : Cfg) : Prop := ∀ k f s d r, C.emma k f s d = .ok r → 0 ≤ r.1.2.2

end Verif.Spec
