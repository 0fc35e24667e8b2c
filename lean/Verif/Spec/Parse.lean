import Verif.Model.Parse
import Verif.Spec.ChunkDict
/-!
# How rules and chunks are written

The documented form of rules and chunks as a relation between what is meant and the text. `strict` demands white space between
words where the documentation has it; otherwise it may be missing.
-/
namespace Verif.Spec

/-- White space of any length; at least one character if it `must` be there. -/
def Gap (must : Bool) (g : List Char) : Prop := (∀ c ∈ g, c ∈ [' ', '\n', '\t', '\r']) ∧ (must = true → g ≠ [])

/-- The name of a slot: letters, digits and `_`, not beginning with a digit. -/
def SlotName (n : String) : Prop := ∃ c t, n.toList = c :: t ∧ (c.isAlpha ∨ c = '_') ∧ ∀ x ∈ t, x.isAlphanum ∨ x = '_'

/-- The name of a buffer: letters, digits and `_`, beginning with a letter. -/
def BufferName (n : String) : Prop := ∃ c t, n.toList = c :: t ∧ c.isAlpha ∧ ∀ x ∈ t, x.isAlphanum ∨ x = '_'

/-- The text of a value: a word, a quoted text, an operator followed by a word. -/
inductive ValueWritten : PTok → List Char → Prop
  | word {w : String} : w.toList ≠ [] → (∀ x ∈ w.toList, x.isAlphanum ∨ x ∈ ['_', ':', '|', '.', ',', '%', '&', '$', '`', '*', '-']) → ValueWritten (.plain w) w.toList
  | quoted {q : Char} {w : String} {t : List Char} : q = '"' ∨ q = '\'' → w.toList = q :: (t ++ [q]) → (∀ x ∈ t, x ≠ q ∧ x ≠ '\n' ∧ x ≠ '\r' ∧ x ≠ '\t') →
      ValueWritten (.plain w) w.toList
  | special {op w : String} {g : List Char} : op ∈ ["=", "~", "~=", ">", "<", ">=", "<="] → Gap false g → w.toList ≠ [] →
      (∀ x ∈ w.toList, x.isAlphanum ∨ x ∈ ['_', '"', '\'']) → ValueWritten (.special op w) (op.toList ++ (g ++ w.toList))

/-- Slots and values. The parameter after `strict`: must there be white space in front? -/
inductive PairsWritten (strict : Bool) : Bool → List (String × PTok) → List Char → Prop
  | nil {b : Bool} : PairsWritten strict b [] []
  | cons {b : Bool} {n : String} {t : PTok} {l : List (String × PTok)} {g h v r : List Char} : Gap b g → SlotName n → Gap strict h → ValueWritten t v →
      PairsWritten strict strict l r → PairsWritten strict b ((n, t) :: l) (g ++ (n.toList ++ (h ++ (v ++ r))))

/-- Tests or actions. -/
inductive PartsWritten (strict : Bool) (signs : List String) : Bool → List RulePart → List Char → Prop
  | nil {b : Bool} : PartsWritten strict signs b [] []
  | cons {b : Bool} {s n : String} {ps : List (String × PTok)} {l : List RulePart} {g h i p r : List Char} : Gap b g → s ∈ signs → Gap false h → BufferName n →
      Gap false i → PairsWritten strict false ps p → PartsWritten strict signs strict l r →
      PartsWritten strict signs b (⟨s, n, ps⟩ :: l) (g ++ (s.toList ++ (h ++ (n.toList ++ (i ++ ('>' :: (p ++ r)))))))

/-- A chunk: at least one slot. -/
def ChunkWritten (strict : Bool) (l : List (String × PTok)) (text : List Char) : Prop :=
  l ≠ [] ∧ ∃ p e, PairsWritten strict false l p ∧ Gap false e ∧ text = p ++ e

/-- A rule: tests, an arrow, actions. -/
def RuleWritten (strict : Bool) (r : RuleText) (text : List Char) : Prop :=
  r.lhs ≠ [] ∧ r.rhs ≠ [] ∧ ∃ l g m e, PartsWritten strict ["=", "?"] false r.lhs l ∧ Gap false g ∧
    PartsWritten strict ["=", "?", "+", "~", "!", "@", "*"] false r.rhs m ∧ Gap false e ∧ text = l ++ (g ++ ('=' :: '=' :: '>' :: (m ++ e)))

/-! ## What tests and actions mean -/

/-- The chunk has the slots described, each with everything said about it, and the type given by `isa`. -/
structure Describes (named : List (String × Chunk)) (l : List (String × PTok)) (c : Chunk) : Prop where
  slots : ∀ n, Mentioned l n → n ≠ "isa" → ∃ x, (n, SlotOf.vv x) ∈ c.slots ∧ Collects named l n x
  typ : ∀ t, ("isa", .plain t) ∈ l → Unquoted t → t ≠ "" → alook t named = Option.none → c.typ = t

/-- What a test (`right = false`) or an action stands for. -/
def PartMeans (named : List (String × Chunk)) (right : Bool) (p : RulePart) (v : Yielded) : Prop :=
  (p.sign = "?" → ∃ q, v = .queries q ∧ ∀ n t, alook n q = some t ↔ (n, t) ∈ p.pairs) ∧
  (right = true → p.sign = "~" → v = .nothing) ∧
  (right = true → p.sign = "!" → v = .commands p.pairs) ∧
  (p.sign ∈ (if right then ["=", "+", "@", "*"] else ["="]) → ∃ c, v = .chunk c ∧ Describes named p.pairs c)

end Verif.Spec
