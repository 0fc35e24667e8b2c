import Verif.Model.Environment
/-! # Specification of the environment process -/
namespace Verif.Spec
open Verif

/-- What an element of `stimuli` shows: the given objects, or one object in the middle of the screen. -/
inductive Shows : StimItem → Screen → Prop
  | screen {s : Screen} : Shows (.screen s) s
  | text {t : String} : Shows (.text t)
      [(t, { text := Option.none, pos := some (320, 180), visDelay := Option.none, locType := Option.none, visType := Option.none,
             extVis := Option.none, attrs := [] })]

/-- The keys that a trigger stands for. -/
inductive Keys (upper : String → String) : TrigItem → List String → Prop
  | space {s : String} : upper s = "SPACE" → Keys upper (.str s) ["SPACE"]
  | chars {s : String} : upper s ≠ "SPACE" → Keys upper (.str s) (s.toList.map (fun c => upper c.toString))
  | many {l : List String} : Keys upper (.many l) (l.map upper)

/-- The elements of the argument `stimuli`. In a tuple there must be dictionaries only. -/
inductive StimArg.Lists : StimArg → List StimItem → Prop
  | single {x : StimItem} : StimArg.Lists (.single x) [x]
  | list {l : List StimItem} : StimArg.Lists (.list l) l
  | tuple {l : List StimItem} : (∀ x ∈ l, ∃ s, x = .screen s) → StimArg.Lists (.tuple l) l

inductive TrigArg.Lists : TrigArg → List TrigItem → Prop
  | single {x : TrigItem} : TrigArg.Lists (.single x) [x]
  | list {l : List TrigItem} : TrigArg.Lists (.list l) l

inductive EnvTimes.Lists : EnvTimes → List ℚ → Prop
  | single {x : ℚ} : EnvTimes.Lists (.single x) [x]
  | list {l : List ℚ} : EnvTimes.Lists (.list l) l

/-- `l'` is `l` brought to length `n`: `l` itself, or its only element `n` times. -/
def Brought {α : Type} (n : ℕ) (l l' : List α) : Prop := l'.length = n ∧ (l' = l ∨ ∃ a, l = [a] ∧ ∀ b ∈ l', b = a)

/-- `l` can be brought to length `n`. -/
def FitsTo {α : Type} (n : ℕ) (l : List α) : Prop := l.length = n ∨ l.length = 1

/-- In the run with events `l`, the `i`-th screen `s` with the trigger `t` is shown between the events `i` and `i+1`, which take
place at the times `a` and `b`: it is on when event `i+1` is announced, and the environment is resumed only at the time of the announced event. -/
def ShownBetween {W : Type} (get : W → Env) (l : List (W × EnvEvent)) (i : ℕ) (s : Screen) (t : List String) (a b : ℚ) : Prop :=
  ∃ x y, l[i]? = some x ∧ l[i + 1]? = some y ∧ x.2.1 = a ∧ y.2.1 = b ∧ (get y.1).stimulus = some s ∧ (get y.1).trigger = some t

end Verif.Spec
