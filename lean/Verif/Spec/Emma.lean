import Verif.Model.Emma
import Verif.Spec.Chunk
/-! # Specification of visual angles and of EMMA -/
namespace Verif.Spec
open Verif

/-- A screen that can be seen: it has a width in pixels and in centimetres, and is in front of the eye. -/
def RealScreen (S : Screening) : Prop := 0 < S.width ∧ 0 < S.cm ∧ 0 < S.view

/-- The distance of two points in pixels. -/
def PixelsApart (a b : ℝ × ℝ) (d : ℝ) : Prop := 0 ≤ d ∧ d ^ 2 = (a.1 - b.1) ^ 2 + (a.2 - b.2) ^ 2

/-- The line between the points is seen under the angle `θ` (in radians) by an eye in front of one of them: the tangent of the angle is
the distance of the points divided by the distance of the eye, both in centimetres. -/
def SeenUnder (S : Screening) (a b : ℝ × ℝ) (θ : ℝ) : Prop :=
  0 ≤ θ ∧ θ < Real.pi / 2 ∧ ∃ d, PixelsApart a b d ∧ Real.tan θ = (d / S.width * S.cm) / S.view

/-- An angle in degrees and in radians. -/
def InDegrees (θ deg : ℝ) : Prop := deg * Real.pi = 180 * θ

/-- One point is strictly nearer to the focus than another. -/
def NearerTo (focus a b : ℝ × ℝ) : Prop :=
  (a.1 - focus.1) ^ 2 + (a.2 - focus.2) ^ 2 < (b.1 - focus.1) ^ 2 + (b.2 - focus.2) ^ 2

/-- Numbers of the clock are not negative if the real numbers are not. -/
def KeepsSign (fl : ℝ → ℚ) : Prop := ∀ x, 0 ≤ x → 0 ≤ fl x

/-- The random numbers are not negative (as those of every gamma distribution). -/
def NonNegNoise (N : EmmaNoise) : Prop := ∀ x, (N.encoding = some x ∨ N.preparation = some x ∨ N.execution = some x) → 0 ≤ x

/-- The object is in the fovea: it is seen under less than one degree from the focus. -/
def InFovea (S : Screening) (focus : ℚ × ℚ) (s : Stim) : Prop :=
  ∃ p θ deg, s.pos = some p ∧ SeenUnder S (toReal2 focus) (toReal2 p) θ ∧ InDegrees θ deg ∧ deg < 1

/-- The chunk shows the object: its value is the text of the object (a text without the signs of variables and negations). -/
def ShowsText (c : Chunk) (s : Stim) : Prop :=
  ∀ t, s.text = some t → (∀ x ∈ t.toList, x ≠ '=' ∧ x ≠ '!') → ("value", SlotOf.vv ⟨.str t, Option.none, [], []⟩) ∈ c.slots

/-- The text of the object is in the buffer already. -/
def KnownText (data : List Chunk) (s : Stim) : Prop :=
  ∃ c x t, data.head? = some c ∧ alook "value" c.slots = some (SlotOf.vv x) ∧ s.text = some t ∧ SameVal x.values (.str t)

end Verif.Spec
