import Verif.Model.Err
/-!
# Generators

Python generators as they are used for module processes: a generator runs until it yields an event, returns or raises; when it
is resumed it sees the state of the world as it is then, which others may have changed.
-/
namespace Verif

/-- What a running generator does next: `W` is the state of the world, `Y` what is yielded, `R` what is returned. -/
inductive Out (W Y R : Type) where
  | yield (w : W) (y : Y) (k : W → Out W Y R)
  | ret (w : W) (r : R)
  | raise (w : W) (e : PyErr)

/-- A generator: what it does when it is started in a given world. -/
abbrev Gen (W Y R : Type) := W → Out W Y R

/-- `yield from`, or running one piece of a generator after another. -/
def Out.bind {W Y A B : Type} : Out W Y A → (A → Gen W Y B) → Out W Y B
  | .yield w y k, f => .yield w y (fun w' => (k w').bind f)
  | .ret w a, f => f a w
  | .raise w e, _ => .raise w e

/-- How a generator ended: it returned, it raised, or it was not resumed any more. -/
inductive GEnd (W R : Type) where
  | ret (w : W) (r : R)
  | raise (w : W) (e : PyErr)
  | cut

/-- `Runs Rel o l e`: starting with `o`, the generator can yield the events `l` one after another (each with the world at that
moment) and end with `e`, if between two resumptions others change the world as `Rel` allows. -/
inductive Runs {W Y R : Type} (Rel : W → W → Prop) : Out W Y R → List (W × Y) → GEnd W R → Prop
  | ret {w : W} {r : R} : Runs Rel (.ret w r) [] (.ret w r)
  | raise {w : W} {e : PyErr} : Runs Rel (.raise w e) [] (.raise w e)
  | cut {w : W} {y : Y} {k : W → Out W Y R} : Runs Rel (.yield w y k) [(w, y)] .cut
  | yield {w w' : W} {y : Y} {k : W → Out W Y R} {l : List (W × Y)} {e : GEnd W R} :
      Rel w w' → Runs Rel (k w') l e → Runs Rel (.yield w y k) ((w, y) :: l) e

end Verif
