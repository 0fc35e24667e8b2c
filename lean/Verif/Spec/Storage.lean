import Verif.Model.Simulation
import Mathlib.Logic.Relation
/-! # What happens to buffers and memories

An abstract machine: all that is ever done to the contents of buffers and to what is in memory. -/
namespace Verif.Spec
open Verif

/-- What a buffer holds. -/
def held (w : Mach) (n : String) : Option (List Chunk) := (w.buf n).map Buf.data

/-- What a declarative memory contains: chunks with the times at which they were met. -/
def kept (w : Mach) (i : ℕ) : Option (CDict (List ℚ)) := (w.mems[i]?).map DecMem.data

/-- The buffer is emptied into this memory: it is its own, or one that the model harvests into. -/
def Feeds (w : Mach) (n : String) (i : ℕ) : Prop := (w.buf n).bind Buf.dm = some i ∨ i ∈ w.dms.map Prod.snd

/-- To remember: a chunk that is known is met once more, any other chunk is new. -/
def memorise (H : PyHash) (c : Chunk) (q : ℚ) : CDict (List ℚ) → CDict (List ℚ)
  | [] => [(c, [q])]
  | (d, l) :: r => if ceq H d c then (d, l ++ [q]) :: r else (d, l) :: memorise H c q r

/-- Only this buffer changes, and it holds this now. -/
def HoldsNow (w w' : Mach) (n : String) (l : List Chunk) : Prop := held w' n = some l ∧ ∀ m, m ≠ n → held w' m = held w m

/-- Nothing is done to memory. -/
def NoStore (w w' : Mach) : Prop := ∀ i, kept w' i = kept w i

/-- All that is ever done. -/
inductive Handled (C : Cfg) (w w' : Mach) : Prop
  /-- Something that has nothing to do with buffers and memories. -/
  | other : (∀ n, held w' n = held w n) → NoStore w w' → Handled C w w'
  /-- A chunk is put into a buffer, in place of what was there. -/
  | put (n : String) (c : Chunk) (l : List Chunk) : held w n = some l → HoldsNow w w' n [c] → NoStore w w' → Handled C w w'
  /-- A buffer is emptied. -/
  | empty (n : String) (l : List Chunk) : held w n = some l → HoldsNow w w' n [] → NoStore w w' → Handled C w w'
  /-- The chunk is taken from a buffer. -/
  | drop (n : String) (e : Chunk) (l : List Chunk) : held w n = some (e :: l) → HoldsNow w w' n l → NoStore w w' → Handled C w w'
  /-- The chunk in a buffer is replaced by a changed one. -/
  | change (n : String) (e c : Chunk) (l : List Chunk) : held w n = some (e :: l) → HoldsNow w w' n (l ++ [c]) → NoStore w w' → Handled C w w'
  /-- The chunk is taken from a buffer and put into memory. -/
  | store (n : String) (c : Chunk) (l : List Chunk) (i : ℕ) (q : ℚ) : held w n = some (c :: l) → HoldsNow w w' n l → Feeds w n i →
      kept w' i = (kept w i).map (memorise C.P.H c q) → (∀ j, j ≠ i → kept w' j = kept w j) → Handled C w w'
  /-- A rule calls a method of a buffer. -/
  | command (n : String) (b : Buf) (x : String × String) : w.buf n = some b → HoldsNow w w' n (C.exec x b).1.data → NoStore w w' → Handled C w w'

/-- What is done one after the other. -/
abbrev Course (C : Cfg) : Mach → Mach → Prop := Relation.ReflTransGen (Handled C)

end Verif.Spec
