import Verif.Spec.Machine
import Verif.Spec.Motor
/-! # Specification of key presses -/
namespace Verif.Spec
open Verif

/-- The three kinds of keys: those under the fingers, the two farthest, and the others. -/
inductive KeyStyle where
  | home | far | other
deriving DecidableEq

/-- The style of a key. -/
def StyleOf (k : String) (s : KeyStyle) : Prop :=
  (s = .home ∧ k ∈ ["A", "S", "D", "F", "J", "K", "L", "SPACE"]) ∨ (s = .far ∧ (k = "5" ∨ k = "6")) ∨
  (s = .other ∧ k ∉ ["A", "S", "D", "F", "J", "K", "L", "SPACE", "5", "6"])

/-- The documented times of a style: preparation, initiation, execution, finishing (in seconds). -/
def StyleTimes : KeyStyle → ℚ × ℚ × ℚ × ℚ
  | .home => (15 / 100, 5 / 100, 1 / 100, 9 / 100)
  | .far => (25 / 100, 5 / 100, 11 / 100, 16 / 100)
  | .other => (25 / 100, 5 / 100, 10 / 100, 15 / 100)

/-- A key of the left half of the keyboard. -/
def LeftKey (k : String) : Prop := k ∈ ["1", "2", "3", "4", "5", "Q", "W", "E", "R", "T", "A", "S", "D", "F", "G", "Z", "X", "C", "V", "B"]

/-- A key of the right half. -/
def RightKey (k : String) : Prop := k ∈ ["6", "7", "8", "9", "0", "Y", "U", "I", "O", "P", "H", "J", "K", "L", "N", "M"]

/-- The same hand can press both. -/
def SameHand (a b : String) : Prop := ¬ (LeftKey a ∧ RightKey b) ∧ ¬ (RightKey a ∧ LeftKey b)

/-- The documented preparation time of `key` after `last`. -/
def DocPrep (last : Option String) (key : String) (p : ℚ) : Prop :=
  ∃ s, StyleOf key s ∧
    match last with
    | Option.none => p = (StyleTimes s).1
    | some k => (k = key ∧ p = 0) ∨
      (k ≠ key ∧ ∃ s', StyleOf k s' ∧
        ((s' = s ∧ SameHand k key ∧ p = (StyleTimes s).1 - 1 / 10) ∨ (s' = s ∧ ¬ SameHand k key ∧ p = (StyleTimes s).1 - 1 / 20) ∨
         (s' ≠ s ∧ p = (StyleTimes s).1)))

/-- The events of pressing `key` from time `t` on, with preparation time `p`. -/
def PressEvents (name : String) (t p : ℚ) (key : String) (evs : List Verif.Ev) : Prop :=
  ∃ s e0 e1 e2 e3 e4 e5 c, StyleOf key s ∧ evs = [e0, e1, e2, e3, e4, e5] ∧ (∀ e ∈ evs, e.proc = name) ∧
    AtTime t e0 ∧ e0.act = .command c ∧
    AtTime (t + p) e1 ∧ e1.act = .prepared ∧
    AtTime (t + p + (StyleTimes s).2.1) e2 ∧ e2.act = .initiated ∧
    AtTime (t + p + (StyleTimes s).2.1 + (StyleTimes s).2.2.1) e3 ∧ e3.act = .unknown ∧
    AtTime (t + p + (StyleTimes s).2.1 + (StyleTimes s).2.2.1) e4 ∧ e4.act = .pressed key ∧
    AtTime (t + p + (StyleTimes s).2.1 + (StyleTimes s).2.2.1 + (StyleTimes s).2.2.2) e5 ∧ e5.act = .finished

end Verif.Spec
