import Verif.Spec.Buffer
/-! # Specification of motor requests -/
namespace Verif.Spec
open Verif

/-- The keys of the keyboard: digits, capital letters and the space bar. -/
def OnKeyboard (k : String) : Prop := k = "SPACE" ∨ ∃ c : Char, k = String.ofList [c] ∧ (('0' ≤ c ∧ c ≤ '9') ∨ ('A' ≤ c ∧ c ≤ 'Z'))

/-- The request `other` with bindings `bv` demands the value `v` for slot `n`. -/
def Asks (bv : BV) (other : Chunk) (n : String) (v : Val) : Prop := ∃ x, MentionsSlot other n x ∧ Demands bv x v

/-- The request can be resolved and asks for pressing `k` (as written in the request), and for nothing else. -/
structure AsksPress (bv : BV) (other : Chunk) (k : String) : Prop where
  legal : ∀ n x, MentionsSlot other n x → ¬ Illegal bv true x
  only : ∀ n x, MentionsSlot other n x → n = "cmd" ∨ n = "key"
  cmd : Asks bv other "cmd" (.str "press_key")
  key : Asks bv other "key" (.str k)

/-- The chunk that describes pressing `key`. -/
def PressChunk (key : String) : Chunk :=
  ⟨"_manual", [("cmd", .vv ⟨.str "press_key", Option.none, [], []⟩), ("key", .vv ⟨.str key, Option.none, [], []⟩)]⟩

end Verif.Spec
