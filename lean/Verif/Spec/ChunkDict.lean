import Verif.Spec.Chunk
import Verif.Model.ChunkDict
/-! # Specification of slot descriptions in chunk strings -/
namespace Verif.Spec
open Verif

/-- One thing said about a slot. -/
inductive Contrib where
  | value (v : Val)
  | var (n : String)
  | negval (s : String)
  | negvar (n : String)

/-- `s` is `inner` written in quotes. -/
def QuotedAs (s inner : String) : Prop := s = "'" ++ inner ++ "'" ∨ s = "\"" ++ inner ++ "\""

/-- A word that does not start with a quote. -/
def Unquoted (s : String) : Prop := ∀ r, s ≠ "'" ++ r ∧ s ≠ "\"" ++ r

/-- What a word means after `=`, `~` or `~=`: itself, or what is in the quotes. -/
def WordMeans (w u : String) : Prop := QuotedAs w u ∨ (Unquoted w ∧ u = w)

/-- What a parsed value says about its slot. -/
inductive Says (named : List (String × Chunk)) : PTok → Contrib → Prop
  | quoted {s u : String} : QuotedAs s u → Says named (.plain s) (.value (.str u))
  | chunk {s : String} {c : Chunk} : Unquoted s → alook s named = some c → Says named (.plain s) (.value (.chunk c.typ c.slots))
  | word {s : String} : Unquoted s → alook s named = Option.none → Says named (.plain s) (.value (.str s))
  | var {w u : String} : WordMeans w u → Says named (.special "=" w) (.var u)
  | negval {w u : String} : WordMeans w u → Says named (.special "~" w) (.negval u)
  | negvar {w u : String} : WordMeans w u → Says named (.special "~=" w) (.negvar u)
  | greater {w : String} : Says named (.special ">" w) (.value (.str (">" ++ w)))
  | smaller {w : String} : Says named (.special "<" w) (.value (.str ("<" ++ w)))
  | greaterVar {w : String} : Says named (.special ">=" w) (.var w)
  | greaterVal {w : String} : Says named (.special ">=" w) (.value (.str ">"))
  | smallerVar {w : String} : Says named (.special "<=" w) (.var w)
  | smallerVal {w : String} : Says named (.special "<=" w) (.value (.str "<"))

/-- The words the parser delivers: with an operator of the grammar, and quotes only in pairs. -/
def WellTok : PTok → Prop
  | .plain s => ∃ u, WordMeans s u
  | .special op w => (op = ">" ∨ op = "<" ∨ op = ">=" ∨ op = "<=") ∨ ((op = "=" ∨ op = "~" ∨ op = "~=") ∧ ∃ u, WordMeans w u)

/-- What the whole list says about slot `n`. -/
def SaidOf (named : List (String × Chunk)) (toks : List (String × PTok)) (n : String) (c : Contrib) : Prop :=
  ∃ t, (n, t) ∈ toks ∧ Says named t c

/-- Slot `n` is mentioned. -/
def Mentioned (toks : List (String × PTok)) (n : String) : Prop := ∃ t, (n, t) ∈ toks

/-- Two different values or two different variables for slot `n`. -/
def Conflict (named : List (String × Chunk)) (toks : List (String × PTok)) (n : String) : Prop :=
  (∃ v w, SaidOf named toks n (.value v) ∧ SaidOf named toks n (.value w) ∧ content v ≠ content w) ∨
  (∃ x y, SaidOf named toks n (.var x) ∧ SaidOf named toks n (.var y) ∧ x ≠ y)

/-- `x` collects exactly what is said about slot `n`. -/
structure Collects (named : List (String × Chunk)) (toks : List (String × PTok)) (n : String) (x : VarVal) : Prop where
  value : x.values = .none ∨ SaidOf named toks n (.value x.values)
  allValues : ∀ v, SaidOf named toks n (.value v) → content x.values = content v
  var : ∀ y, x.vars = some y ↔ SaidOf named toks n (.var y)
  negval : ∀ v, v ∈ x.negvalues ↔ ∃ s, v = .str s ∧ SaidOf named toks n (.negval s)
  negvar : ∀ y, y ∈ x.negvars ↔ SaidOf named toks n (.negvar y)

end Verif.Spec
