import Verif.Spec.BoundVars
import Verif.Spec.DecMem
import Verif.Model.Assoc
/-! # Specification of association counts and spreading activation -/
namespace Verif.Spec
open Verif Classical

/-- Every chunk an operation mentions is plain. -/
def PlainOp : MemOp → Prop
  | .add (.chunk c) _ => Plain c
  | .add (.iter _ l) _ => ∀ c ∈ l, Plain c
  | .set c _ => Plain c

/-- The memories reachable from a new one by additions, assignments and look-ups of associations (and deletions, if
allowed). -/
inductive MemReach (H : PyHash) (dels : Bool) : DecMem → Prop
  | new : MemReach H dels DecMem.empty
  | op {m : DecMem} {o : MemOp} : MemReach H dels m → PlainOp o → MemReach H dels (m.step H o).1
  | look {m : DecMem} {S : ℝ} {r : String} {only : Bool} {j : Val} {i : Chunk} : MemReach H dels m → PlainVal j → Plain i →
      MemReach H dels (strengthAssoc H m S r only j i).1
  | del {m : DecMem} {c : Chunk} : dels = true → MemReach H dels m → Plain c → MemReach H dels (m.del H c).1

/-- The number of slots in memory that hold the value `v`. -/
noncomputable def slotsHolding (m : DecMem) (v : Val) : ℕ :=
  (m.data.map (fun p => p.1.slots.countP (fun x => ∃ y, x.2 = SlotOf.vv y ∧ content y.values = content v))).sum

/-- ... in slots with the name `s`. -/
noncomputable def slotsNamedHolding (m : DecMem) (s : String) (v : Val) : ℕ :=
  (m.data.map (fun p => p.1.slots.countP (fun x => x.1 = s ∧ ∃ y, x.2 = SlotOf.vv y ∧ content y.values = content v))).sum

/-- A value that says something: not empty, not the empty string, not a chunk without content. -/
def Telling (v : Val) : Prop := content v ≠ .none ∧ content v ≠ .str "" ∧ content v ≠ .chunk []

/-- The same counts, but slots whose value is blank (see `Blank`) do not count; for `Telling` values it makes no
difference. -/
noncomputable def fan (m : DecMem) (v : Val) : ℕ :=
  1 + (m.data.map (fun p => p.1.slots.countP (fun x => ∃ y, x.2 = SlotOf.vv y ∧ ¬ Blank y.values ∧ content y.values = content v))).sum

noncomputable def fanNamed (m : DecMem) (s : String) (v : Val) : ℕ :=
  1 + (m.data.map (fun p => p.1.slots.countP
    (fun x => x.1 = s ∧ ∃ y, x.2 = SlotOf.vv y ∧ ¬ Blank y.values ∧ content y.values = content v))).sum

def IsChunkVal : Val → Prop
  | .chunk _ _ => True
  | _ => False

/-- The sources of activation in a chunk: the slots with a value, or with a chunk as their value. -/
noncomputable def sources (only : Bool) (k : Chunk) : List (String × Val) :=
  k.slots.filterMap (fun x => match x.2 with
    | .empty => Option.none
    | .vv y => if ¬ Noneish y.values ∧ (only = true → IsChunkVal y.values) then some (x.1, y.values) else Option.none)

/-- How often `v` occurs in `i`. -/
noncomputable def occurrences (only : Bool) (i : Chunk) (v : Val) : ℕ :=
  (sources only i).countP (fun p => content p.2 = content v)

/-- The strength of association between the value `v` of slot `s` and the chunk `i`. -/
noncomputable def strength (m : DecMem) (S : ℝ) (restricted only : Bool) (s : String) (v : Val) (i : Chunk) : ℝ :=
  if restricted then
    if ∃ p ∈ sources only i, p.1 = s ∧ content p.2 = content v
    then S - Real.log (fanNamed m s v / max 1 (occurrences only i v)) else 0
  else
    if content v = .chunk (chunkContent i) ∨ ∃ p ∈ sources only i, content p.2 = content v
    then S - Real.log (fan m v / max 1 (occurrences only i v)) else 0

/-- What one source buffer contributes. -/
noncomputable def contribution (m : DecMem) (S : ℝ) (restricted only : Bool) (i : Chunk) (W : ℝ) : Option Chunk → ℝ
  | Option.none => 0
  | some k => W / (sources only k).length * ((sources only k).map (fun p => strength m S restricted only p.1 p.2 i)).sum

end Verif.Spec
