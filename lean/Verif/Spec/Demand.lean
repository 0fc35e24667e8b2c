import Verif.Spec.Compile
import Verif.Spec.Rules
/-!
# Specification of what compiled rules demand

Independent of the functions of `Model/Compile`.
-/
namespace Verif.Spec
open Verif

/-- The rule does something to the buffer that may change its state: a request, a command, clearing or overwriting it. -/
def ActsUpon (rhs : List (Key × RVal)) (b : String) : Prop :=
  ∃ k v, (k, v) ∈ rhs ∧ k.name = b ∧ k.code ∈ ['+', '!', '~', '@', '*']

/-- The two rules do not ask different things of the same buffer, unless the first one acts upon the buffer. -/
def AskAlike (lhs1 : List (Key × LVal)) (rhs1 : List (Key × RVal)) (lhs2 : List (Key × LVal)) : Prop :=
  ∀ b d1 d2 a v1 v2, ((⟨'?', b⟩ : Key), LVal.dict d1) ∈ lhs1 → ((⟨'?', b⟩ : Key), LVal.dict d2) ∈ lhs2 → (a, v1) ∈ d1 →
    (a, v2) ∈ d2 → v1 = v2 ∨ ActsUpon rhs1 b

/-- If both rules test the same buffer, the second one tests it for a chunk whose type has all slots of the first test. -/
def TestAlike (reg : Reg) (lhs1 lhs2 : List (Key × LVal)) : Prop :=
  ∀ b c1 c2, ((⟨'=', b⟩ : Key), LVal.chunk c1) ∈ lhs1 → ((⟨'=', b⟩ : Key), LVal.chunk c2) ∈ lhs2 →
    ∃ fs, alook c2.typ reg = some fs ∧ ∀ n ∈ c1.slots.map Prod.fst, n ∈ fs

/-- The names of the buffers that the rule tests are not variables in its tests. -/
def PlainNames (lhs : List (Key × LVal)) : Prop := ∀ n, Tested lhs n → ¬ PosVar lhs n ∧ ¬ NegVar lhs n

/-- Values that compilation may put in the place of variables: those of the tests of the second rule and of what is known about the
buffers after the first rule. -/
inductive MentionedVal (lhs2 : List (Key × LVal)) (sv : SlotVals) : Val → Prop
  | test {k : Key} {c : Chunk} {n : String} {x : VarVal} : (k, LVal.chunk c) ∈ lhs2 → (n, SlotOf.vv x) ∈ c.slots →
      MentionedVal lhs2 sv x.values
  | known {b n : String} {d : Slots} {x : VarVal} : (b, SlotInfo.dict d) ∈ sv → (n, SlotOf.vv x) ∈ d → MentionedVal lhs2 sv x.values
  | retrieved {b n : String} {d : Slots} {c : Chunk} {x : VarVal} : (b, SlotInfo.retr d (some c)) ∈ sv →
      (n, SlotOf.vv x) ∈ c.slots → MentionedVal lhs2 sv x.values

/-- These values are data. -/
def DataMentioned (lhs2 : List (Key × LVal)) (sv : SlotVals) : Prop := ∀ v, MentionedVal lhs2 sv v → PlainVal v ∧ v ≠ .empty

/-- `l` are conditions of the second rule that the first rule has nothing to do with: queries of buffers that it does not act upon,
and slots that it does not test, in buffers other than the one that it retrieves to. -/
def LeftAlone (lhs1 : List (Key × LVal)) (rhs1 : List (Key × RVal)) (sv : SlotVals) (lhs2 l : List (Key × LVal)) : Prop :=
  ∀ k v, (k, v) ∈ l →
    (k.code = '?' ∧ (k, v) ∈ lhs2 ∧ ¬ ActsUpon rhs1 k.name) ∨
    (k.code = '=' ∧ (∀ d c, (k.name, SlotInfo.retr d c) ∉ sv) ∧ ∃ c c2, v = .chunk c ∧ (k, LVal.chunk c2) ∈ lhs2 ∧
      (∀ n s, (n, s) ∈ c.slots → (n, s) ∈ c2.slots) ∧
      ∀ c1 n x y, (k, LVal.chunk c1) ∈ lhs1 → (n, SlotOf.vv x) ∈ c.slots → (n, SlotOf.vv y) ∉ c1.slots)

end Verif.Spec
