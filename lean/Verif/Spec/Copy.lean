import Verif.Model.Copy
/-!
# What copies promise

Stated with what a program can see of its objects: the content of each buffer, the items of each memory.
-/
namespace Verif.Spec
open Verif

/-- The content of the buffer with the number `i`. -/
def contentAt (h : Heap) (i : ℕ) : Option (List Chunk) := (h.bufs[i]?).map (fun b => h.sets.getD b.set [])

/-- The memory of the buffer with the number `i`. -/
def memoryOf (h : Heap) (i : ℕ) : Option ℕ := (h.bufs[i]?).bind HBuf.dm

/-- The call is one on the buffer `i`. -/
def OnBuf (i : ℕ) : HOp → Prop
  | .buf k _ => k = i
  | _ => False

/-- The call is one on the memory `j` or on a buffer that has this memory. -/
def Reaches (h : Heap) (j : ℕ) : HOp → Prop
  | .mem k _ => k = j
  | .buf i _ => memoryOf h i = some j
  | _ => False

/-- None of the calls reaches the memory `j`. -/
def Spares (P : Py) (j : ℕ) : Heap → List HOp → Prop
  | _, [] => True
  | h, o :: r => ¬ Reaches h j o ∧ Spares P j (h.step P o) r

/-- The attributes that can be set by the user, and the memory. -/
def settings (h : Heap) (i : ℕ) : Option (ℚ × ℕ × Option ℕ) := (h.bufs[i]?).map (fun b => (b.delay, b.finst, b.dm))

end Verif.Spec
