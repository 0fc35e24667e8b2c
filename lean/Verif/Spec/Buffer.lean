import Verif.Spec.BoundVars
import Verif.Spec.DecMem
import Verif.Model.Buffer
/-! # Specification of buffers -/
namespace Verif.Spec
open Verif Classical

/-- A slot description that says something: a value, a variable or a negation. -/
def Speaks (x : VarVal) : Prop :=
  (x.values ≠ .none ∧ x.values ≠ .empty) ∨ (∃ y, x.vars = some y ∧ y ≠ "") ∨ x.negvars ≠ [] ∨ x.negvalues ≠ []

/-- `other` mentions its slot `n` with description `x`. -/
def MentionsSlot (other : Chunk) (n : String) (x : VarVal) : Prop := (n, SlotOf.vv x) ∈ other.slots ∧ Speaks x

/-- A slot that is kept: its description stays, and an empty slot then says explicitly 'None'. -/
def KeptAs : Slot → VarVal → Prop
  | .empty, y => y = ⟨.str "None", Option.none, [], []⟩
  | .vv x, y => y = x

/-- The traces of `c` in a memory. -/
def HasTraces (m : DecMem) (c : Chunk) (l : List ℚ) : Prop :=
  (∃ d, (d, l) ∈ m.data ∧ chunkContent d = chunkContent c) ∨
  ((∀ d l', (d, l') ∈ m.data → chunkContent d ≠ chunkContent c) ∧ l = [])

/-- Plain data, every chunk at most once. -/
structure GoodMem (m : DecMem) : Prop where
  plain : ∀ d l, (d, l) ∈ m.data → Plain d
  once : m.data.Pairwise (fun a b => chunkContent a.1 ≠ chunkContent b.1)

/-- The memory into which a buffer of kind `k` is harvested: the one given, otherwise the buffer's own; the retrieval buffer
always uses its own. -/
def Target (k : BufKind) (st : BState) (harvest : Option ℕ) (i : ℕ) : Prop :=
  (k = .retrieval ∧ st.dm = some i) ∨ (k ≠ .retrieval ∧ (harvest = some i ∨ (harvest = Option.none ∧ st.dm = some i)))

/-- The number of traces of `c` in a memory. -/
noncomputable def nTraces (c : Chunk) (m : DecMem) : ℕ :=
  (m.data.map (fun p => if chunkContent p.1 = chunkContent c then p.2.length else 0)).sum

/-- The number of traces of `c` in all memories, plus one if the buffer holds it. -/
noncomputable def total (c : Chunk) (st : BState) : ℕ :=
  (st.mems.map (nTraces c)).sum + (st.data.map (fun d => if chunkContent d = chunkContent c then 1 else 0)).sum

/-- How often a history puts `c` into the buffer. -/
noncomputable def puts (c : Chunk) : List BufOp → ℕ
  | [] => 0
  | .add (some d) _ _ :: r => (if chunkContent d = chunkContent c then 1 else 0) + puts c r
  | _ :: r => puts c r

/-- Adding and clearing, with a memory to harvest into. -/
def Harvesting (k : BufKind) (st : BState) : BufOp → Prop
  | .add e _ h => (∀ d, e = some d → Plain d) ∧ ∃ i, Target k st h i ∧ i < st.mems.length
  | .clear _ h => ∃ i, Target k st h i ∧ i < st.mems.length
  | _ => False

end Verif.Spec
