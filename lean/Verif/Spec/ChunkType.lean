import Verif.Model.ChunkType
/-! # Specification of chunk types and chunk creation -/
namespace Verif.Spec
open Verif

/-- Names in the canonical order: strictly increasing by code points, each with "_" appended. -/
def FieldsSorted (l : List String) : Prop := l.Pairwise (fun a b => a ++ "_" < b ++ "_")

/-- The characters that separate names in a string of slot names. -/
def IsSep (c : Char) : Prop := c = ' ' ∨ c = ','

/-- `cs` consists of the words `ws` with separators around and between them. -/
inductive WordsOf : List Char → List (List Char) → Prop
  | done {seps : List Char} : (∀ c ∈ seps, IsSep c) → WordsOf seps []
  | word {seps w rest : List Char} {ws : List (List Char)} :
      (∀ c ∈ seps, IsSep c) → w ≠ [] → (∀ c ∈ w, ¬ IsSep c) → (∀ c r, rest = c :: r → IsSep c) →
      WordsOf rest ws → WordsOf (seps ++ w ++ rest) (w :: ws)

/-- The slot names meant by the argument `field_names`. -/
def Given : FieldArg → List String → Prop
  | .names l, l' => l' = l
  | .text s, l' => ∃ ws, WordsOf s.toList ws ∧ l' = ws.map String.ofList

/-- A special chunk type is given slots that are not written exactly as in the library. -/
def SpecialMismatch (name : String) (a : FieldArg) : Prop := ∃ s, (name, s) ∈ specialTypes ∧ a ≠ .text s

/-- `f` is a slot of type `t` in registry `reg`. -/
def HasField (reg : Reg) (t f : String) : Prop := ∃ fs, alook t reg = some fs ∧ f ∈ fs

/-- The registries that can arise from the empty one by calling `chunktype` and creating chunks, successfully or not. -/
inductive Reach (E : PyEnv) : Reg → Prop
  | empty : Reach E []
  | type {reg reg' : Reg} {name : String} {a : FieldArg} {incl : List String} :
      Reach E reg → chunktype E reg name a incl = .ok reg' → Reach E reg'
  | chunk {reg : Reg} {typ : String} {dict : List (String × SlotArg)} :
      Reach E reg → (dict.map Prod.fst).Nodup → Reach E (createChunk E reg typ dict).1

end Verif.Spec
