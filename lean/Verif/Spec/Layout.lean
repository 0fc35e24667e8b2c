import Verif.Model.Simulation
/-! # Specification: the buffers and memories of a simulation (property C92) -/
namespace Verif.Spec
open Verif

/-- The buffers of a model in their order: name, class, and the memory that it is emptied into. -/
def layout (w : Mach) : List (String × BufClass × Option ℕ) := w.bufs.map (fun p => (p.1, p.2.cls, p.2.dm))

/-- The memories that the model has under names, and the number of all of them. -/
def stores (w : Mach) : List (String × ℕ) × ℕ := (w.dms, w.mems.length)

end Verif.Spec
