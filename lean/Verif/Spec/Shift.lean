import Verif.Spec.Machine
/-! # Specification of visual shifts -/
namespace Verif.Spec
open Verif

/-- Events in temporal order. -/
def InOrder (evs : List Verif.Ev) : Prop := evs.Pairwise (fun e f => e.time ≤ f.time)

/-- Exactly one of the events is of a kind. -/
def ExactlyOne (p : Verif.Ev → Prop) (evs : List Verif.Ev) : Prop :=
  ∃ before e after, evs = before ++ e :: after ∧ p e ∧ ∀ f ∈ before ++ after, ¬ p f

/-- An object has been encoded. -/
def Encoding (e : Verif.Ev) : Prop := ∃ c, e.act = .encoded c

/-- The eye has moved. -/
def EyeMove (e : Verif.Ev) : Prop := ∃ p, e.act = .shiftComplete p

/-- What a shift will take, as the buffer computes it (`Visual.shift`): the chunk, the times for encoding, preparation and execution,
and the place where the eye lands. -/
structure Plan where
  chunk : Chunk
  encoding : ℚ
  preparation : ℚ
  execution : ℚ
  site : ℚ × ℚ

/-- The plan for a request in a state. -/
def Plans (C : Cfg) (v : RVal) (bv : BV) (w : Mach) (p : Plan) : Prop :=
  ∃ c, v = .chunk c ∧ (shiftIn C c bv w).2 = .ok (p.chunk, (p.encoding, p.preparation, p.execution), p.site)

/-- EMMA computes no negative times. -/
def NonNegTimes (C : Cfg) : Prop := ∀ k f s d r, C.emma k f s d = .ok r → 0 ≤ r.1.1 ∧ 0 ≤ r.1.2.1 ∧ 0 ≤ r.1.2.2

end Verif.Spec
