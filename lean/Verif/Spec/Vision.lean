import Verif.Model.Vision
import Verif.Spec.Motor
import Verif.Spec.ChunkType
/-! # Specification of visual search -/
namespace Verif.Spec
open Verif

/-- `n` is the integer part of `q` (towards zero). -/
def IntPart (q : ℚ) (n : ℤ) : Prop := (0 ≤ q → n ≤ q ∧ q < n + 1) ∧ (q < 0 → (n : ℚ) - 1 < q ∧ q ≤ n)

/-- Two descriptions of the same object: all keys and values are the same. -/
def SameStim (a b : Stim) : Prop :=
  a.text = b.text ∧ a.pos = b.pos ∧ a.visDelay = b.visDelay ∧ a.locType = b.locType ∧ a.visType = b.visType ∧ a.extVis = b.extVis
    ∧ ∀ n, alook n a.attrs = alook n b.attrs

/-- The request `other` with bindings `bv` rejects the value `v` for slot `n`. -/
def Refuses (bv : BV) (other : Chunk) (n : String) (v : Val) : Prop := ∃ x, MentionsSlot other n x ∧ Rejects bv x v

/-- The coordinate `k` is as the slot `n` of the request demands: equal to a given number, or smaller or greater than one. -/
structure PosHolds (pyInt : String → Option ℤ) (bv : BV) (other : Chunk) (n : String) (k : ℤ) : Prop where
  at_ : ∀ s i, Asks bv other n (.str s) → pyInt s = some i → k = i
  less : ∀ s i, Asks bv other n (.str ("<" ++ s)) → pyInt s = some i → k < i
  greater : ∀ s i, Asks bv other n (.str (">" ++ s)) → pyInt s = some i → i < k
  notAt : ∀ s i, Refuses bv other n (.str s) → pyInt s = some i → k ≠ i

/-- The object `s`, seen at the pixel `p`, satisfies the conditions of the request on value, position, relative position and
attendedness. -/
structure Satisfies (pyInt : String → Option ℤ) (bv : BV) (other : Chunk) (att : Option Bool) (recent : List Stim) (s : Stim)
    (p : ℤ × ℤ) : Prop where
  seen : ∃ x y, s.pos = some (x, y) ∧ IntPart x p.1 ∧ IntPart y p.2
  value : ∀ v, Asks bv other "value" v → ∃ t, s.text = some t ∧ SameVal v (.str t)
  notValue : ∀ v t, Refuses bv other "value" v → s.text = some t → ¬ SameVal v (.str t)
  x : PosHolds pyInt bv other "screen_x" p.1
  y : PosHolds pyInt bv other "screen_y" p.2
  unattended : att = some false → ¬ ∃ r ∈ recent, SameStim r s
  attended : att = some true → ∃ r ∈ recent, SameStim r s

/-- What a request can ask to be optimised. -/
inductive Criterion where
  | lowX | highX | lowY | highY | closest | closeX | closeY

/-- The request asks for this criterion. -/
def Wanted (bv : BV) (other : Chunk) : Criterion → Prop
  | .lowX => Asks bv other "screen_x" (.str "lowest")
  | .highX => Asks bv other "screen_x" (.str "highest")
  | .lowY => Asks bv other "screen_y" (.str "lowest")
  | .highY => Asks bv other "screen_y" (.str "highest")
  | .closest => Asks bv other "screen_x" (.str "closest") ∨ Asks bv other "screen_y" (.str "closest")
  | .closeX => Asks bv other "screen_x" (.str "onewayclosest")
  | .closeY => Asks bv other "screen_y" (.str "onewayclosest")

/-- What is to be minimised. -/
def cost (focus : ℚ × ℚ) (p : ℤ × ℤ) : Criterion → ℚ
  | .lowX => p.1
  | .highX => -p.1
  | .lowY => p.2
  | .highY => -p.2
  | .closest => (focus.1 - p.1) * (focus.1 - p.1) + (focus.2 - p.2) * (focus.2 - p.2)
  | .closeX => |focus.1 - p.1|
  | .closeY => |focus.2 - p.2|

/-- `p` is better than `q`: as good in everything asked for, and better in something. -/
def BetterPos (bv : BV) (other : Chunk) (focus : ℚ × ℚ) (p q : ℤ × ℤ) : Prop :=
  (∀ c, Wanted bv other c → cost focus p c ≤ cost focus q c) ∧ ∃ c, Wanted bv other c ∧ cost focus p c < cost focus q c

/-- The chunk describes the pixel `p`. -/
def LocatedAt (c : Chunk) (p : ℤ × ℤ) : Prop :=
  ("screen_x", SlotOf.vv ⟨.str (toString p.1), Option.none, [], []⟩) ∈ c.slots ∧
  ("screen_y", SlotOf.vv ⟨.str (toString p.2), Option.none, [], []⟩) ∈ c.slots

/-- What C39 says of a successful search. -/
structure GoodSearch (pyInt : String → Option ℤ) (bv : BV) (other : Chunk) (att : Option Bool) (recent : List Stim)
    (focus : ℚ × ℚ) (objects : List Stim) (found : Option Chunk) (stim : Option Stim) : Prop where
  nothing : found = Option.none → stim = Option.none ∧ ∀ s ∈ objects, ∀ p, ¬ Satisfies pyInt bv other att recent s p
  something : ∀ c, found = some c → ∃ s p, stim = some s ∧ s ∈ objects ∧ Satisfies pyInt bv other att recent s p ∧ LocatedAt c p ∧
    ∀ s' ∈ objects, ∀ p', Satisfies pyInt bv other att recent s' p' → ¬ BetterPos bv other focus p' p

end Verif.Spec
