import Verif.Model.Procedural
import Mathlib.Logic.Relation
/-! # The rules that a model has over time -/
namespace Verif.Spec
open Verif

/-- A rule of the model. -/
def HasRule (w : Mach) (n : String) (r : CRule) : Prop := alook n w.rules = some r

/-- The name of a rule made of two rules. -/
def NamedAfter (n r1 r2 : String) : Prop := n = r1 ++ " and " ++ r2 ∨ ∃ k : ℕ, 0 < k ∧ n = r1 ++ " and " ++ r2 ++ " " ++ toString k

/-- The rules are the same, with other utilities. -/
def Relearned (w w' : Mach) : Prop := ∃ f : String → ℚ, ∀ n, alook n w'.rules = (alook n w.rules).map (fun r => { r with utility := f n })

/-- All that is ever done to the rules and to the list of rules to be tried. -/
inductive Practised (C : Cfg) (w w' : Mach) : Prop
  /-- Something that has nothing to do with them. -/
  | other : w'.rules = w.rules → w'.ordered = w.ordered → Practised C w w'
  /-- A reward. -/
  | reward : C.up.utilityLearning = true → Relearned w w' → w'.ordered = w.ordered → Practised C w w'
  /-- A new rule is made of two rules. -/
  | fresh (n r1 r2 : String) (x1 x2 : CRule) (new : Body) (reg : Reg) (sv : SlotVals) (bufs : List (String × CBuf)) : C.compilation = true → HasRule w r1 x1 → HasRule w r2 x2 → NamedAfter n r1 r2 →
      newRule C.P reg r2 x1.body x2.body sv bufs = .ok (some new) → (∀ r, ¬ HasRule w n r) → HasRule w' n ⟨new, 0, Option.none⟩ → (∀ m, m ≠ n → alook m w'.rules = alook m w.rules) →
      w'.ordered = w.ordered ++ [n] → Practised C w w'
  /-- A rule that is there already is made once more. -/
  | again (n r1 r2 : String) (r : CRule) : C.compilation = true → NamedAfter n r1 r2 → HasRule w n r → (w'.rules = w.rules ∨ C.up.utilityLearning = true ∧ Relearned w w') →
      w'.ordered = w.ordered ++ [n] → Practised C w w'

/-- What is done to the rules one after the other. -/
abbrev Practice (C : Cfg) : Mach → Mach → Prop := Relation.ReflTransGen (Practised C)

/-- Where a rule comes from: it was there at the beginning, or it was made, in any number of turns, of such rules. -/
inductive Stems (C : Cfg) (w : Mach) : String → Body → Prop
  | given {n : String} {r : CRule} : HasRule w n r → Stems C w n r.body
  | made {n r1 r2 : String} {b1 b2 new : Body} (reg : Reg) (sv : SlotVals) (bufs : List (String × CBuf)) : C.compilation = true → Stems C w r1 b1 → Stems C w r2 b2 → NamedAfter n r1 r2 →
      newRule C.P reg r2 b1 b2 sv bufs = .ok (some new) → Stems C w n new

/-- The rule is as before, perhaps with another utility if there is learning. -/
structure AsBefore (C : Cfg) (r r' : CRule) : Prop where
  body : r'.body = r.body
  reward : r'.reward = r.reward
  utility : C.up.utilityLearning = false → r'.utility = r.utility

/-- The rules that are tried are tried in the order of their utilities. -/
def BestFirst (w : Mach) : Prop := w.ordered.Pairwise (fun a b => ∀ r r', HasRule w a r → HasRule w b r' → r'.utility ≤ r.utility)

/-- The rules that are tried are the rules that there are. -/
def AllTried (w : Mach) : Prop := ∀ n, n ∈ w.ordered ↔ ∃ r, HasRule w n r

end Verif.Spec
