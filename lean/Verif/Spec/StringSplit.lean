import Verif.Model.Chunk
/-! # Specification of the slot mini-language -/
namespace Verif.Spec
open Verif

/-- One part of a slot description: a value, a variable, a negated value or a negated variable. -/
inductive Part where
  | val (n : String)
  | var (n : String)
  | negval (n : String)
  | negvar (n : String)

def Part.name : Part → String
  | .val n => n
  | .var n => n
  | .negval n => n
  | .negvar n => n

/-- How a part is written. -/
def Part.render : Part → String
  | .val n => "!" ++ n
  | .var n => "=" ++ n
  | .negval n => "~!" ++ n
  | .negvar n => "~=" ++ n

/-- A description with several parts: the parts one after the other. -/
def renderParts : List Part → String
  | [] => ""
  | p :: r => p.render ++ renderParts r

/-- Names that may be used in the mini-language: no special character and no line break. -/
def NameOk (n : String) : Prop := ∀ c ∈ n.toList, c ≠ '=' ∧ c ≠ '!' ∧ c ≠ '~' ∧ c ≠ '\n'

/-- A description that can be written in the mini-language: its values are strings, all names are allowed and not empty, and nothing
is negated twice. -/
structure Writable (x : VarVal) : Prop where
  value : x.values = .none ∨ ∃ n, x.values = .str n ∧ n ≠ "" ∧ NameOk n
  var : ∀ n, x.vars = some n → n ≠ "" ∧ NameOk n
  negvalues : ∀ v ∈ x.negvalues, ∃ n, v = .str n ∧ n ≠ "" ∧ NameOk n
  negvars : ∀ n ∈ x.negvars, n ≠ "" ∧ NameOk n
  once : x.negvalues.Nodup ∧ x.negvars.Nodup

/-- Two descriptions that ask for the same: the order of negations does not count. -/
def SameDesc (x y : VarVal) : Prop :=
  x.values = y.values ∧ x.vars = y.vars ∧ x.negvalues.Perm y.negvalues ∧ x.negvars.Perm y.negvars

end Verif.Spec
