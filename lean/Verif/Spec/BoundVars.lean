import Verif.Spec.Chunk
/-! # Specification of resolving a slot description with given bindings -/
namespace Verif.Spec
open Verif

/-- Values that Python takes for "nothing": None, the empty string, a chunk without slots. -/
def Blank : Val → Prop
  | .none => True
  | .empty => False
  | .str s => s = ""
  | .chunk _ sl => sl = []

/-- The bindings `bv` and the description `x` demand that the slot has this value. -/
inductive Demands (bv : BV) (x : VarVal) : Val → Prop
  | literal : ¬ Blank x.values → Demands bv x x.values
  | bound {y : String} {v : Val} : x.vars = some y → y ≠ "" → bv.get y = some v → Demands bv x v

/-- ... or that it does not have this value. -/
inductive Rejects (bv : BV) (x : VarVal) : Val → Prop
  | literal {v : Val} : v ∈ x.negvalues → Rejects bv x v
  | bound {y : String} {v : Val} : y ∈ x.negvars → bv.get y = some v → Rejects bv x v

/-- Why a description cannot be resolved. -/
inductive Illegal (bv : BV) (negImpossible : Bool) (x : VarVal) : Prop
  | unbound (y : String) : x.vars = some y → y ≠ "" → bv.get y = Option.none → Illegal bv negImpossible x
  | unboundNeg (y : String) : y ∈ x.negvars → bv.get y = Option.none → Illegal bv negImpossible x
  | negation : negImpossible = true → (x.negvalues ≠ [] ∨ x.negvars ≠ []) → Illegal bv negImpossible x
  | two (v w : Val) : Demands bv x v → Demands bv x w → ¬ SameVal v w → Illegal bv negImpossible x

/-- `r` is the resolution of `x`: no variables are left; its value is a demanded one, and the same as every other demanded
one, or None if nothing is demanded; it rejects the same values. -/
structure Resolves (bv : BV) (x r : VarVal) : Prop where
  vars : r.vars = Option.none
  negvars : r.negvars = []
  value : Demands bv x r.values ∨ ((∀ v, ¬ Demands bv x v) ∧ r.values = .none)
  same : ∀ v, Demands bv x v → SameVal r.values v
  negSound : ∀ v ∈ r.negvalues, Rejects bv x v
  negComplete : ∀ v, Rejects bv x v → ∃ w ∈ r.negvalues, content w = content v

/-- Everything the description and the bindings mention is plain data. -/
structure PlainRequest (bv : BV) (x : VarVal) : Prop where
  value : PlainVal x.values
  negvalues : ∀ v ∈ x.negvalues, PlainVal v
  bound : ∀ y v, bv.get y = some v → PlainVal v

/-- The cases in which resolution works as documented: the variable is not bound to a blank value, no demanded value is
">" or "<", and an unbound negated variable comes with a positive variable. -/
structure Ordinary (bv : BV) (x : VarVal) : Prop where
  notBlank : ∀ v, Demands bv x v → ¬ Blank v
  noRelation : ∀ v, Demands bv x v → v ≠ .str ">" ∧ v ≠ .str "<"
  negBound : ∀ y ∈ x.negvars, bv.get y = Option.none → ∃ z, x.vars = some z ∧ z ≠ ""

end Verif.Spec
