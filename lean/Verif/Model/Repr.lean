import Verif.Model.StringSplit
/-!
# The printed form of chunks

Models `varval_repr` (utilities.py:40-62) and `Chunk.__repr__` (chunks.py:219-232), which make the texts of traces and of printed
rules.
-/
namespace Verif

mutual
/-- `str(v)` for a slot value. `EmptyValue.__repr__` is `repr(None)` (chunks.py:80-81). -/
def Val.text : Val → String
  | .none => "None"
  | .empty => "None"
  | .str s => s
  | .chunk typ sl => typ ++ ("(" ++ (slotsText "" sl ++ ")"))
/-- `str(y)` for the content of a slot (chunks.py:222-225). -/
def slotText : SlotOf Val → String
  | .empty => ""
  | .vv ⟨v, vr, nv, nvr⟩ =>
    (if v.truthy then v.text else "") ++ ((if optStrTruthy vr then "=" ++ vr.getD "" else "") ++ (negText nv ++ negvarText nvr))
/-- The loop over the negated values (utilities.py:51-53). Simplification: negations are tuples, never a string (lines 54-55). -/
def negText : List Val → String
  | [] => ""
  | v :: r => "~" ++ (v.text ++ negText r)
/-- The loop over the slots (chunks.py:221-231); `acc` is `reprtxt`. -/
def slotsText : String → List (String × SlotOf Val) → String
  | acc, [] => acc
  | acc, (n, s) :: r =>
    slotsText (if acc ≠ "" then acc ++ (", " ++ (n ++ ("= " ++ slotText s))) else if n ≠ "" then n ++ ("= " ++ slotText s) else slotText s) r
/-- The loop over the negated variables (utilities.py:57-59), with the same simplification. -/
def negvarText : List String → String
  | [] => ""
  | n :: r => "~=" ++ (n ++ negvarText r)
end

/-- `varval_repr` (utilities.py:40-62). -/
def varvalRepr (x : VarVal) : String := slotText (.vv x)

/-- `Chunk.__repr__` (chunks.py:219-232). -/
def Chunk.repr (c : Chunk) : String := c.val.text

end Verif
