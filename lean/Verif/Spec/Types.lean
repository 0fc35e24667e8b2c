import Verif.Model.Simulation
/-! # Specification: chunk types in simulations (property C90) -/
namespace Verif.Spec
open Verif

/-- The chunk type has these slots. -/
def Slotted (w : Mach) (typ : String) (fs : List String) : Prop := alook typ w.reg = some fs

/-- The chunk types of the modules for vision and hands. -/
def Wired (typ : String) : Prop := typ = "_manual" ∨ typ = "_visual" ∨ typ = "_visuallocation"

end Verif.Spec
