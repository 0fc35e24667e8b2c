import Verif.Spec.Sequence
/-!
# Specification of pairs of rules that a compiled rule can replace

Independent of the functions of `Model/Compile`.
-/
namespace Verif.Spec
open Verif

/-- Restrictions on pairs of rules:
* where something is known about a slot that the second rule tests, the first rule tests this slot too,
* buffers that one of the rules tests are not named like a variable in the tests of the first rule, nor like a variable of the second
  rule after renaming,
* no variable in the tests of the first rule looks like one of the second rule after renaming,
* if both rules modify a buffer, a slot that neither of them sets is not tested for a negation by the first rule, and the chunk of the
  second rule has all slots of the chunk of the first one. -/
structure Replaceable (name2 : String) (l1 : List (Key × LVal)) (r1 : List (Key × RVal)) (l2 : List (Key × LVal))
    (r2 : List (Key × RVal)) (sv : SlotVals) : Prop where
  tested : ∀ b n x y, Meeting r1 l2 sv b n x y → ∃ c1 y', ((⟨'=', b⟩ : Key), LVal.chunk c1) ∈ l1 ∧ (n, SlotOf.vv y') ∈ c1.slots
  names : ∀ n, Tested l1 n ∨ Tested l2 n → ¬ PosVar l1 n ∧ ¬ NegVar l1 n ∧ ∀ u, n ≠ u ++ "__rule__" ++ name2
  fresh : ∀ y u, PosVar l1 y ∨ NegVar l1 y → y ≠ u ++ "__rule__" ++ name2
  kept : ∀ b c c2 c1 n y, ((⟨'=', b⟩ : Key), RVal.chunk c) ∈ r1 → ((⟨'=', b⟩ : Key), RVal.chunk c2) ∈ r2 →
    ((⟨'=', b⟩ : Key), LVal.chunk c1) ∈ l1 → (n, SlotOf.vv y) ∈ c1.slots → (∀ x, (n, SlotOf.vv x) ∉ c.slots) →
    (n, SlotOf.empty) ∈ c2.slots → y.negvars = [] ∧ y.negvalues = []
  acts : ∀ b c c2, ((⟨'=', b⟩ : Key), RVal.chunk c) ∈ r1 → ((⟨'=', b⟩ : Key), RVal.chunk c2) ∈ r2 →
    ∀ n ∈ c.slots.map Prod.fst, n ∈ c2.slots.map Prod.fst

end Verif.Spec
