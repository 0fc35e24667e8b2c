import Verif.Spec.Demand
import Verif.Spec.Buffer
/-!
# Specification of rules that modify buffers, one after the other

Independent of the functions of `Model/Compile`.
-/
namespace Verif.Spec
open Verif

/-! ## What a rule does to buffers -/

/-- The slot description `x` of an action, under the assignment `σ`, gives the slot the value `w`. -/
structure GivesVal (σ : String → Option Val) (x : VarVal) (w : Val) : Prop where
  plain : x.negvars = [] ∧ x.negvalues = []
  lit : x.values ≠ .none → SameVal x.values w
  var : ∀ y, x.vars = some y → y ≠ "" → ∃ v, σ y = some v ∧ SameVal v w

/-- The chunk `d` is changed to `d'` as `c` says under the assignment `σ`: the slots that `c` mentions get the values that it gives
them, the others keep theirs. -/
structure Changed (σ : String → Option Val) (c d d' : Chunk) : Prop where
  typ : d'.typ = c.typ
  data : DataChunk d'
  names : ∀ n, n ∈ d'.slots.map Prod.fst ↔ n ∈ d.slots.map Prod.fst
  given : ∀ n x w, MentionsSlot c n x → SlotHas d' n w → GivesVal σ x w
  kept : ∀ n w w', (∀ x, ¬ MentionsSlot c n x) → SlotHas d n w → SlotHas d' n w' → SameVal w w'

/-- The buffers are changed as the modifications in `r` say, and in no other way. -/
structure Modified (σ : String → Option Val) (r : List (Key × RVal)) (faces faces' : Faces) : Prop where
  acted : ∀ b c, ((⟨'=', b⟩ : Key), RVal.chunk c) ∈ r → ∃ f d rest d', alook b faces = some f ∧ f.data = d :: rest ∧
    alook b faces' = some { f with data := d' :: rest } ∧ Changed σ c d d'
  rest : ∀ b, (∀ c, ((⟨'=', b⟩ : Key), RVal.chunk c) ∉ r) → alook b faces' = alook b faces

/-- The rule with left-hand side `l` and right-hand side `r` matches the buffers `faces` and turns them into `faces'`. -/
def Fires (D : Val → Prop) (l : List (Key × LVal)) (r : List (Key × RVal)) (faces faces' : Faces) : Prop :=
  ∃ σ, RuleHolds D faces l σ ∧ Modified σ r faces faces'

/-! ## Rules that only test, query and modify buffers -/

/-- The slot of a test says something: it has a value, a variable, or a negation. -/
structure SaysSomething (x : VarVal) : Prop where
  value : x.values = .none ∨ ¬ NoRequirement x.values
  var : x.vars ≠ some ""
  some : x.values ≠ .none ∨ x.vars ≠ Option.none ∨ x.negvars ≠ [] ∨ x.negvalues ≠ []

/-- The slot of an action gives a value or a variable. -/
structure PlainAction (x : VarVal) : Prop where
  plain : x.negvars = [] ∧ x.negvalues = []
  data : PlainVal x.values
  one : (x.vars = Option.none ∧ ¬ NoRequirement x.values) ∨ (x.values = .none ∧ ∃ y, y ≠ "" ∧ x.vars = some y)

/-- A rule that does nothing but modify buffers, and whose conditions are tests and queries. Its actions are chunks with all slots of
their types, and use variables of the tests. -/
structure ModifyingRule (reg : Reg) (l : List (Key × LVal)) (r : List (Key × RVal)) : Prop where
  codes : ∀ k v, (k, v) ∈ l → k.code = '=' ∨ k.code = '?'
  only : ∀ k v, (k, v) ∈ r → k.code = '='
  tests : ∀ b c n x, ((⟨'=', b⟩ : Key), LVal.chunk c) ∈ l → (n, SlotOf.vv x) ∈ c.slots → SaysSomething x
  acts : ∀ b c n x, ((⟨'=', b⟩ : Key), RVal.chunk c) ∈ r → (n, SlotOf.vv x) ∈ c.slots → PlainAction x
  full : ∀ b c n, ((⟨'=', b⟩ : Key), RVal.chunk c) ∈ r → n ∈ (alook c.typ reg).getD [] → n ∈ c.slots.map Prod.fst
  bound : ∀ b c n x y, ((⟨'=', b⟩ : Key), RVal.chunk c) ∈ r → (n, SlotOf.vv x) ∈ c.slots → x.vars = some y → PosVar l y

/-- What is known about the slots of a buffer after the action `c`: what `c` gives, and for the other slots what the test says. -/
def KnownAfter (l : List (Key × LVal)) (b : String) (c : Chunk) (d : Slots) : Prop :=
  (d.map Prod.fst).Nodup ∧ (∀ n x, (n, SlotOf.vv x) ∈ c.slots → alook n d = some (.vv x)) ∧
  ∀ n, (∀ x, (n, SlotOf.vv x) ∉ c.slots) →
    (∀ c1, ((⟨'=', b⟩ : Key), LVal.chunk c1) ∈ l → alook n d = alook n c1.slots) ∧
    ((∀ c1, ((⟨'=', b⟩ : Key), LVal.chunk c1) ∉ l) → alook n d = Option.none)

/-- `sv` is what is known about the buffers after the rule with left-hand side `l` and right-hand side `r`. -/
structure Recorded (l : List (Key × LVal)) (r : List (Key × RVal)) (sv : SlotVals) : Prop where
  keys : (sv.map Prod.fst).Nodup
  acted : ∀ b c, ((⟨'=', b⟩ : Key), RVal.chunk c) ∈ r → ∃ d, alook b sv = some (.dict d) ∧ KnownAfter l b c d
  rest : ∀ b, (∀ c, ((⟨'=', b⟩ : Key), RVal.chunk c) ∉ r) → alook b sv = Option.none ∨ alook b sv = some .nothing

/-! ## Rules that fit together -/

/-- The second rule tests slot `n` of buffer `b`, `x` says for what, and `y` is what is known about the slot after the first rule. -/
def Meeting (r1 : List (Key × RVal)) (l2 : List (Key × LVal)) (sv : SlotVals) (b n : String) (x y : VarVal) : Prop :=
  ∃ c c2 d, ((⟨'=', b⟩ : Key), RVal.chunk c) ∈ r1 ∧ ((⟨'=', b⟩ : Key), LVal.chunk c2) ∈ l2 ∧ (n, SlotOf.vv x) ∈ c2.slots ∧
    alook b sv = some (.dict d) ∧ alook n d = some (.vv y)

/-- Restrictions on pairs of rules:
* slots that both rules test are in buffers that the first rule modifies,
* where something is known about a slot that the second rule tests, the second rule does not test it for a negation, and what is known
  is not only a negation,
* a variable of such a slot in the second rule is in no other slot of its tests,
* a variable in what is known about such a slot is not in what is known about another slot of a buffer that the second rule tests,
* no variable in what is known looks like one of the second rule after renaming,
* if both rules modify a buffer, the chunk of the second one has all slots of the chunk of the first one. -/
structure FitTogether (name2 : String) (l1 : List (Key × LVal)) (r1 : List (Key × RVal)) (l2 : List (Key × LVal))
    (r2 : List (Key × RVal)) (sv : SlotVals) : Prop where
  apart : ∀ b c1 c2 n x y, ((⟨'=', b⟩ : Key), LVal.chunk c1) ∈ l1 → ((⟨'=', b⟩ : Key), LVal.chunk c2) ∈ l2 →
    (n, SlotOf.vv y) ∈ c1.slots → (n, SlotOf.vv x) ∈ c2.slots → ∃ c, ((⟨'=', b⟩ : Key), RVal.chunk c) ∈ r1
  plain : ∀ b n x y, Meeting r1 l2 sv b n x y → x.negvars = [] ∧ x.negvalues = [] ∧ (y.values ≠ .none ∨ y.vars ≠ Option.none)
  once2 : ∀ b n x y v b' c' n' x', Meeting r1 l2 sv b n x y → x.vars = some v → ((⟨'=', b'⟩ : Key), LVal.chunk c') ∈ l2 →
    (n', SlotOf.vv x') ∈ c'.slots → x'.vars = some v → b' = b ∧ n' = n
  once1 : ∀ b n x y v b' d' n' y', Meeting r1 l2 sv b n x y → y.vars = some v → Tested l2 b' → alook b' sv = some (.dict d') →
    alook n' d' = some (.vv y') → y'.vars = some v → b' = b ∧ n' = n
  fresh : ∀ b d n y v u, alook b sv = some (.dict d) → alook n d = some (.vv y) → y.vars = some v → v ≠ u ++ "__rule__" ++ name2
  acts : ∀ b c c2, ((⟨'=', b⟩ : Key), RVal.chunk c) ∈ r1 → ((⟨'=', b⟩ : Key), RVal.chunk c2) ∈ r2 →
    ∀ n ∈ c.slots.map Prod.fst, n ∈ c2.slots.map Prod.fst

/-- The buffers hold data, with all slots that the rules test or set. -/
structure Furnished (l1 : List (Key × LVal)) (r1 : List (Key × RVal)) (l2 : List (Key × LVal)) (r2 : List (Key × RVal))
    (faces : Faces) : Prop where
  data : ∀ b f d rest, alook b faces = some f → f.data = d :: rest → DataChunk d
  tests : ∀ b c f d rest, ((⟨'=', b⟩ : Key), LVal.chunk c) ∈ l1 ++ l2 → alook b faces = some f → f.data = d :: rest → Covers d c
  acts : ∀ b c f d rest, ((⟨'=', b⟩ : Key), RVal.chunk c) ∈ r1 ++ r2 → alook b faces = some f → f.data = d :: rest → Covers d c

end Verif.Spec
