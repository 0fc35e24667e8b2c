import Verif.Model.Machine
import Mathlib.Analysis.SpecialFunctions.Complex.Arg
import Mathlib.Analysis.SpecialFunctions.Trigonometric.Arctan
/-!
# Visual angles and the EMMA model of eye movements

Models the functions of utilities.py:582-699 and their use in vision.py:303-304 and vision.py:345-359. Numbers are real numbers.
Simplification: floating point is replaced by exact arithmetic; positions, sizes and delays are numbers (the code also converts
strings to numbers).
-/
namespace Verif

/-- `math.atan2(y, x)`: the angle of the point (x, y). -/
noncomputable def pyAtan2 (y x : ℝ) : ℝ := Complex.arg ⟨x, y⟩

/-- What is known about the screen: its width in pixels (`environment.size[0]`), its width in centimetres
(`simulated_screen_size[0]`) and the distance of the eye in centimetres (`viewing_distance`). Only these are used
(environment.py:17-39). -/
structure Screening where
  width : ℝ
  cm : ℝ
  view : ℝ

/-- `pxpercm` (utilities.py:603, utilities.py:612), an exception if the width in centimetres is 0. -/
noncomputable def Screening.pxPerCm (S : Screening) : Except PyErr ℝ := if S.cm = 0 then .error .zeroDivision else .ok (S.width / S.cm)

/-- `calculate_pythagorean_distance` (utilities.py:615-627), and the distance in utilities.py:599-602. -/
noncomputable def pixelDistance (a b : ℝ × ℝ) : ℝ := Real.sqrt ((b.1 - a.1) ^ 2 + (b.2 - a.2) ^ 2)

/-- `calculate_onedimensional_distance` (utilities.py:629-644). -/
noncomputable def oneDimensional (a b : ℝ × ℝ) (horizontal : Bool) : ℝ := if horizontal then |a.1 - b.1| else |a.2 - b.2|

/-- `calculate_visual_angle` (utilities.py:582-605): in radians. -/
noncomputable def visualAngle (S : Screening) (a b : ℝ × ℝ) : Except PyErr ℝ :=
  match S.pxPerCm with
  | .error e => .error e
  | .ok px => if px = 0 then .error .zeroDivision else .ok (pyAtan2 (pixelDistance a b / px) S.view)

/-- `calculate_distance` (utilities.py:607-613): in pixels. -/
noncomputable def angleDistance (S : Screening) (degrees : ℝ) : Except PyErr ℝ :=
  match S.pxPerCm with
  | .error e => .error e
  | .ok px => .ok (px * Real.tan (degrees * Real.pi / 180) * S.view)

/-- `np.random.gamma(shape=9, scale=scale)`: the scale times a random number drawn from the standard gamma distribution, which is an
input here; an exception if the scale is negative. -/
noncomputable def gammaDraw (draw scale : ℝ) : Except PyErr ℝ := if scale < 0 then .error .value else .ok (scale * draw)

/-- With noise (a random number is given) the time is the mean of what is drawn. -/
noncomputable def maybeNoisy (noise : Option ℝ) (mean : ℝ) : Except PyErr ℝ :=
  match noise with
  | some d => gammaDraw d (mean / 9)
  | Option.none => .ok mean

/-- `calculate_delay_visual_attention` (utilities.py:646-663). A missing delay and the delay 0 are falsy. -/
noncomputable def attentionDelay (angle K k : ℝ) (noise visDelay : Option ℝ) : Except PyErr ℝ :=
  maybeNoisy noise (match visDelay with
    | some v => if v = 0 then 0 else K * v * Real.exp (k * angle)
    | Option.none => 0)

/-- `calculate_preparation_time` (utilities.py:665-672). -/
noncomputable def preparationTime (noise : Option ℝ) : Except PyErr ℝ := maybeNoisy noise 0.135

/-- `calculate_execution_time` (utilities.py:674-683). -/
noncomputable def executionTime (angle : ℝ) (noise : Option ℝ) : Except PyErr ℝ :=
  maybeNoisy noise (0.07 + 0.002 * (180 * angle / Real.pi))

/-- `calculate_landing_site` (utilities.py:686-699). With noise a point is drawn: the position plus the square root of the variance times
a point drawn from the standard normal distribution. -/
noncomputable def landingSite (position : ℝ × ℝ) (angle : ℝ) (noise : Option (ℝ × ℝ)) : ℝ × ℝ :=
  match noise with
  | some z =>
    if 180 * angle / Real.pi = 0 then position
    else
      let s := Real.sqrt (0.1 * (180 * angle / Real.pi))
      (position.1 + s * z.1, position.2 + s * z.2)
  | Option.none => position

/-- The parameters of EMMA: `eye_mvt_scaling_parameter` and `eye_mvt_angle_parameter`. -/
structure EmmaParams where
  K : ℝ
  k : ℝ

/-- The random numbers of a shift, nothing if there is no noise. -/
structure EmmaNoise where
  encoding : Option ℝ
  preparation : Option ℝ
  execution : Option ℝ
  site : Option (ℝ × ℝ)

/-- No noise at all. -/
def EmmaNoise.off : EmmaNoise := ⟨Option.none, Option.none, Option.none, Option.none⟩

/-- The times and the landing site of a shift with EMMA (vision.py:348-353): encoding, preparation, execution. -/
noncomputable def emmaShift (S : Screening) (E : EmmaParams) (N : EmmaNoise) (focus site : ℝ × ℝ) (visDelay : Option ℝ) :
    Except PyErr ((ℝ × ℝ × ℝ) × (ℝ × ℝ)) :=
  match visualAngle S focus site with
  | .error e => .error e
  | .ok angle => match attentionDelay angle E.K E.k N.encoding visDelay with
    | .error e => .error e
    | .ok enc => match preparationTime N.preparation with
      | .error e => .error e
      | .ok prep => match executionTime angle N.execution with
        | .error e => .error e
        | .ok exec => .ok ((enc, prep, exec), landingSite site angle N.site)

/-- The encoding time of automatic buffering (vision.py:303-304); the angle is doubled. -/
noncomputable def bufferingTime (S : Screening) (E : EmmaParams) (noise : Option ℝ) (focus pos : ℝ × ℝ) (visDelay : Option ℝ) :
    Except PyErr ℝ :=
  match visualAngle S focus pos with
  | .error e => .error e
  | .ok angle => attentionDelay (2 * angle) E.K E.k noise visDelay

/-- The test of productions.py:820: is the object near the focus? `f` is `foveal_distance`. -/
def nearFocus (f : ℝ) (focus pos : ℝ × ℝ) : Prop :=
  focus.1 - f < pos.1 ∧ pos.1 < focus.1 + f ∧ focus.2 - f < pos.2 ∧ pos.2 < focus.2 + f

/-- Pairs of numbers as pairs of real numbers. -/
def toReal2 (p : ℚ × ℚ) : ℝ × ℝ := ((p.1 : ℝ), (p.2 : ℝ))

/-- The numbers of a simulation (`Cfg`) are computed by the functions above and turned into numbers of the clock by `C.fl`. `N`
are the random numbers of the shifts. -/
structure Computes (C : Cfg) (S : Screening) (E : EmmaParams) (N : ℕ → EmmaNoise) : Prop where
  emma : ∀ i f s d, C.emma i f s d = (emmaShift S E (N i) (toReal2 f) (toReal2 s) (d.map (fun q : ℚ => (q : ℝ)))).map
    (fun r => ((C.fl r.1.1, C.fl r.1.2.1, C.fl r.1.2.2), (C.fl r.2.1, C.fl r.2.2)))
  foveal : ∃ x, angleDistance S 1 = .ok x ∧ C.foveal = C.fl x

end Verif
