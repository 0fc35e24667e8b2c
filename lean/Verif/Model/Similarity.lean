import Verif.Model.Chunk
import Verif.Model.Err
/-! # Similarities: `ACTRModel.set_similarities` (model.py:273-282) -/
namespace Verif

/-- Dictionary assignment for pair keys: an existing (equal) key keeps its place and gets the new value. -/
def simSet (H : PyHash) (a b : Val) (q : ℚ) : SimTable → SimTable
  | [] => [((a, b), q)]
  | ((x, y), p) :: r => if keyEq H x a && keyEq H y b then ((x, y), q) :: r else ((x, y), p) :: simSet H a b q r

/-- `ACTRModel.set_similarities` (model.py:273-282): the table afterwards, or the exception (the table is then unchanged). -/
def setSimilarities (H : PyHash) (t : SimTable) (a b : Val) (q : ℚ) : Except PyErr SimTable :=
  if q > 0 then .error .actr else .ok (simSet H b a q (simSet H a b q t))

/-- A history of calls; a rejected call leaves the table as it is. -/
def runSims (H : PyHash) (t : SimTable) : List (Val × Val × ℚ) → SimTable
  | [] => t
  | (a, b, q) :: r => runSims H (match setSimilarities H t a b q with | .ok t' => t' | .error _ => t) r

end Verif
