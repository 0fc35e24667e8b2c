import Verif.Spec.Chunk
import Verif.Model.World
import Verif.Spec.Rounding
/-!
# Specification of rule conditions

Independent of the functions of `Model/Rules`; only dictionary lookup is shared.
-/
namespace Verif.Spec
open Verif

/-- The assignment `σ` of values to variables makes the pattern `p` true of the chunk `d`: variables have the value of their
slot, negated variables do not, and values are as required. -/
structure CondHolds (p d : Chunk) (σ : String → Option Val) : Prop where
  pos : ∀ n x y w, (n, SlotOf.vv x) ∈ p.slots → x.vars = some y → y ≠ "" → SlotHas d n w → ∃ v, σ y = some v ∧ SameVal v w
  neg : ∀ n x y w v, (n, SlotOf.vv x) ∈ p.slots → y ∈ x.negvars → SlotHas d n w → σ y = some v → ¬ SameVal v w
  lit : Means p d

/-- One query: `buffer` asks whether the buffer is full or empty, everything else for the value of an attribute. -/
def QueryHolds (f : BufFace) (a v : String) : Prop :=
  if a = "buffer" then (v = "empty" ∧ f.data = []) ∨ (v = "full" ∧ f.data ≠ []) else alook a f.attrs = some v

/-- A condition of a rule is true: a test if the buffer has a chunk, the pattern is true of it and the variable with the name of
the buffer stands for it; a list of queries if all of them hold. -/
inductive CondTrue (bufs : Faces) (σ : String → Option Val) : Key × LVal → Prop
  | test {n : String} {p : Chunk} {b : BufFace} {d : Chunk} {r : List Chunk} : alook n bufs = some b → b.data = d :: r →
      CondHolds p d σ → (∃ v, σ n = some v ∧ SameVal v d.val) → CondTrue bufs σ (⟨'=', n⟩, .chunk p)
  | query {n : String} {q : List (String × String)} : (∀ a v, (a, v) ∈ q → ∃ f, alook n bufs = some f ∧ QueryHolds f a v) →
      CondTrue bufs σ (⟨'?', n⟩, .dict q)

/-- All conditions of a rule are true under one assignment. -/
structure RuleHolds (D : Val → Prop) (bufs : Faces) (lhs : List (Key × LVal)) (σ : String → Option Val) : Prop where
  data : ∀ y v, σ y = some v → D v
  conds : ∀ c ∈ lhs, CondTrue bufs σ c

/-- `n` is the name of a buffer tested by the rule. -/
def Tested (lhs : List (Key × LVal)) (n : String) : Prop := ∃ p, ((⟨'=', n⟩ : Key), LVal.chunk p) ∈ lhs

/-- `y` is a variable of some test of the rule. -/
def PosVar (lhs : List (Key × LVal)) (y : String) : Prop :=
  ∃ n p m x, ((⟨'=', n⟩ : Key), LVal.chunk p) ∈ lhs ∧ (m, SlotOf.vv x) ∈ p.slots ∧ x.vars = some y

/-- `y` is a negated variable of some test of the rule. -/
def NegVar (lhs : List (Key × LVal)) (y : String) : Prop :=
  ∃ n p m x, ((⟨'=', n⟩ : Key), LVal.chunk p) ∈ lhs ∧ (m, SlotOf.vv x) ∈ p.slots ∧ y ∈ x.negvars

/-- The buffers tested by the rule have data chunks with values in the domain. -/
structure GoodBuffers (D : Val → Prop) (bufs : Faces) (lhs : List (Key × LVal)) : Prop where
  chunk : ∀ n p b d r, ((⟨'=', n⟩ : Key), LVal.chunk p) ∈ lhs → alook n bufs = some b → b.data = d :: r →
    Plain d ∧ Named d ∧ InDomain D d p ∧ NoneFilled p d ∧ D d.val

/-- Tests are written as patterns with distinct slots and literals without variables. -/
def GoodPatterns (lhs : List (Key × LVal)) : Prop :=
  ∀ n p, ((⟨'=', n⟩ : Key), LVal.chunk p) ∈ lhs → Named p ∧ PlainLits p

/-- Restrictions on variable names: the test of a buffer does not mention the variable named like the buffer, names of tested
buffers are not negated, a variable has one letter or a letter that is neither a variable nor a tested buffer, and no slot has
both a variable and the value 'None'. -/
structure SafeNames (lhs : List (Key × LVal)) : Prop where
  own : ∀ n p m x, ((⟨'=', n⟩ : Key), LVal.chunk p) ∈ lhs → (m, SlotOf.vv x) ∈ p.slots → x.vars ≠ some n
  neg : ∀ n, Tested lhs n → ¬ NegVar lhs n
  letters : ∀ y, PosVar lhs y → (∃ c : Char, y = c.toString) ∨
    ∃ c ∈ y.toList, ¬ PosVar lhs c.toString ∧ ¬ Tested lhs c.toString
  noNone : ∀ n p m x, ((⟨'=', n⟩ : Key), LVal.chunk p) ∈ lhs → (m, SlotOf.vv x) ∈ p.slots → x.values = .str "None" →
    x.vars = Option.none ∨ x.vars = some ""

end Verif.Spec

namespace Verif.Spec
open Verif

/-- The utility of a rule. -/
def utilityOf (rules : Rules) (name : String) : ℚ := ((alook name rules).map Rule.utility).getD 0

/-- The utility with which the rule in position `i` of the list takes part in conflict resolution: with noise, if noise is on. -/
def noisyUtility (noise : Bool) (rules : Rules) (draws : ℕ → ℚ) (i : ℕ) (name : String) : ℚ :=
  utilityOf rules name + if noise then draws i else 0

/-- The rule `name` with utility `u` is a best one among those in the list `names` that satisfy `M`. -/
def BestRule (M : String → Prop) (U : ℕ → String → ℚ) (names : List String) (name : String) (u : ℚ) : Prop :=
  (∃ i, names[i]? = some name ∧ M name ∧ u = U i name) ∧ ∀ j m, names[j]? = some m → M m → U j m ≤ u

/-- The result of an update with rate `alpha` of the utility `u` of a rule used at time `t` towards the reward `r` received at
time `now`: a step from `u` in the direction of the delayed reward, rounded. -/
def LearnStep (alpha r now t u u' : ℚ) : Prop := IsRounded ((1 - alpha) * u + alpha * (r - (now - t))) u'

/-- Updating once for every time in the list. -/
inductive LearnSteps (alpha r now : ℚ) : List ℚ → ℚ → ℚ → Prop
  | nil (u : ℚ) : LearnSteps alpha r now [] u u
  | cons {t : ℚ} {l : List ℚ} {u v w : ℚ} : LearnStep alpha r now t u v → LearnSteps alpha r now l v w →
      LearnSteps alpha r now (t :: l) u w

end Verif.Spec
