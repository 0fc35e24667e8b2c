import Verif.Spec.Chunk
import Verif.Spec.Rounding
import Verif.Model.DecMem
/-! # Specification of declarative memory as a log -/
namespace Verif.Spec
open Verif Classical

/-- What an entry of the log does to the traces of its chunk: add some, or set them anew. -/
inductive Ev where
  | append (l : List ℚ)
  | assign (l : List ℚ)

/-- A log of additions and assignments. -/
abbrev Log := List (Chunk × Ev)

/-- The traces after one more entry. -/
def Ev.apply : Ev → List ℚ → List ℚ
  | .append l, old => old ++ l
  | .assign l, _ => l

/-- The traces of chunk `c` according to the log. -/
noncomputable def logTimes (c : Chunk) : Log → List ℚ → List ℚ
  | [], acc => acc
  | (d, e) :: r, acc => if chunkContent d = chunkContent c then logTimes c r (e.apply acc) else logTimes c r acc

/-- The first occurrence of each chunk (up to content), in order. -/
noncomputable def firsts : List Chunk → List Chunk
  | [] => []
  | c :: r => c :: (firsts r).filter (fun d => chunkContent d ≠ chunkContent c)

/-- The traces given by a time argument. `roundAll` says whether the members of a collection are rounded as well. -/
def Stamped (roundAll : Bool) : TimeArg → List ℚ → Prop
  | .one q, l => ∃ r, IsRounded q r ∧ l = [r]
  | .many qs, l => if roundAll then List.Forall₂ IsRounded qs l else l = qs

/-- What a call contributes to the log. -/
inductive OpLog (roundAll : Bool) : MemOp → Log → Prop
  | chunk {c : Chunk} {t : TimeArg} {l : List ℚ} : Stamped roundAll t l → OpLog roundAll (.add (.chunk c) t) [(c, .append l)]
  | iter {b : Bool} {cs : List Chunk} {t : TimeArg} {l : List ℚ} :
      Stamped roundAll t l → OpLog roundAll (.add (.iter b cs) t) (cs.map (fun c => (c, .append l)))
  | set {c : Chunk} {t : TimeArg} {l : List ℚ} : Stamped roundAll t l → OpLog roundAll (.set c t) [(c, .assign l)]

/-- The log of a history of calls. -/
inductive LogOf (roundAll : Bool) : List MemOp → Log → Prop
  | nil : LogOf roundAll [] []
  | cons {op : MemOp} {r : List MemOp} {a b : Log} : OpLog roundAll op a → LogOf roundAll r b → LogOf roundAll (op :: r) (a ++ b)

/-- Memory contains exactly the logged chunks, in order of first addition, each with its logged traces. -/
def IsLog (data : List (Chunk × List ℚ)) (log : Log) : Prop :=
  data.map Prod.fst = firsts (log.map Prod.fst) ∧ ∀ c l, (c, l) ∈ data → l = logTimes c log []

/-- An addition of a tuple, generator or other hashable iterable. -/
def HashableIter : MemOp → Prop
  | .add (.iter true _) _ => True
  | _ => False

end Verif.Spec
