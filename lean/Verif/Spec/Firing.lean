import Verif.Spec.Sequence
import Verif.Spec.Cycle
import Verif.Spec.ChunkType
/-!
# Specification of the firing of rules that modify buffers

Independent of the generators of `Model/Procedural` and `Model/Modules`.
-/
namespace Verif.Spec
open Verif

/-- While a rule fires, others leave alone the buffers, the chunk types, the rules, and what the procedural module has noted. They
may do anything to the processes, the memories, and the environment. -/
structure Undisturbed (w w' : Mach) : Prop where
  bufs : w'.bufs = w.bufs
  reg : w'.reg = w.reg
  rules : w'.rules = w.rules
  bv : w'.bv = w.bv
  usedName : w'.usedName = w.usedName
  curSlots : w'.curSlots = w.curSlots

/-- A value that can be put into a slot by means of a variable: there is something, and it is not a sign of comparison. -/
def Placeable (v : Val) : Prop := ¬ Blank v ∧ v ≠ .str ">" ∧ v ≠ .str "<"

/-- The rule `name`, which tests and modifies buffers, has been selected and is about to be tested once more:
* its conditions and actions are as usual (see C28 and C67),
* the buffers that it modifies are free and have one chunk, with just the slots of the type in the action,
* signs of comparison are not used as values. -/
structure AboutToFire (C : Cfg) (name : String) (rule : CRule) (l : List (Key × LVal)) (r : List (Key × RVal)) (w : Mach) : Prop where
  used : w.usedName = some name
  known : alook name w.rules = some rule
  body : rule.body = ⟨.ok l, .ok r⟩
  vars : w.bv = BV.init
  reach : Reach C.P.toPyEnv w.reg
  dict : (w.bufs.map Prod.fst).Nodup
  dictL : (l.map Prod.fst).Nodup
  dictR : (r.map Prod.fst).Nodup
  chunks : GoodRule w.reg l r
  modifying : ModifyingRule w.reg l r
  patterns : GoodPatterns l
  names : SafeNames l
  buffers : GoodBuffers DataVal w.faces l
  ready : ∀ b c, ((⟨'=', b⟩ : Key), RVal.chunk c) ∈ r → ∃ f d, w.buf b = some f ∧ f.state = .free ∧ f.data = [d] ∧ DataChunk d ∧
    ∀ n, n ∈ d.slots.map Prod.fst ↔ HasField w.reg c.typ n
  literals : ∀ b c n x, ((⟨'=', b⟩ : Key), RVal.chunk c) ∈ r → (n, SlotOf.vv x) ∈ c.slots → x.values ≠ .str ">" ∧ x.values ≠ .str "<"
  values : ∀ σ, RuleHolds DataVal w.faces l σ → ∀ y v, PosVar l y → σ y = some v → Placeable v

/-- Buffers for visual locations get no variables. -/
def NoVarsInLocations (r : List (Key × RVal)) (w : Mach) : Prop :=
  ∀ b c f n x, ((⟨'=', b⟩ : Key), RVal.chunk c) ∈ r → w.buf b = some f → f.cls = .visualLocation → (n, SlotOf.vv x) ∈ c.slots →
    x.vars = Option.none

end Verif.Spec
