import Verif.Model.Retrieve
/-!
# Forgetting type names

Everything that can hold chunks, with all type names (at any depth) replaced by the empty word. Two things "differ at most
in type names" if they become the same.
-/
namespace Verif.Spec
open Verif

mutual
/-- A value without type names. -/
def bareVal : Val → Val
  | .none => .none
  | .empty => .empty
  | .str s => .str s
  | .chunk _ sl => .chunk "" (bareSlots sl)
/-- Slots without type names. -/
def bareSlots : List (String × SlotOf Val) → List (String × SlotOf Val)
  | [] => []
  | (n, s) :: r => (n, bareSlot s) :: bareSlots r
/-- One slot without type names. -/
def bareSlot : SlotOf Val → SlotOf Val
  | .empty => .empty
  | .vv ⟨v, vr, nv, nvr⟩ => .vv ⟨bareVal v, vr, bareVals nv, nvr⟩
/-- Values without type names. -/
def bareVals : List Val → List Val
  | [] => []
  | v :: r => bareVal v :: bareVals r
end

/-- A chunk without type names. -/
def bare (c : Chunk) : Chunk := ⟨"", bareSlots c.slots⟩

/-- What a pattern asks for: its slots without type names, leaving out the slots with nothing in them. -/
def asked (c : Chunk) : Chunk :=
  ⟨"", (bareSlots c.slots).filter (fun p => match p.2 with | .empty => false | .vv _ => true)⟩

/-- Bound variables without type names. -/
def bareBV (bv : BV) : BV := ⟨bv.pos.map (fun p => (p.1, bareVal p.2)), bv.neg.map (fun p => (p.1, p.2.map bareVal))⟩

/-- Similarities without type names. -/
def bareSims (s : SimTable) : SimTable := s.map (fun p => ((bareVal p.1.1, bareVal p.1.2), p.2))

/-- The outcome of matching without type names: the bindings, and the score or the failure. -/
def bareOutcome : Except BV MState → Except BV MState
  | .error bv => .error (bareBV bv)
  | .ok st => .ok ⟨bareBV st.bv, st.sim⟩

/-- Declarative memory without type names. -/
def bareDM (d : DecMem) : DecMem :=
  ⟨d.data.map (fun p => (bare p.1, p.2)), d.unr.map (fun p => (bareVal p.1, p.2)),
    d.restr.map (fun p => ((p.1.1, bareVal p.1.2), p.2)), d.act.map (fun p => (bare p.1, p.2))⟩

/-- Buffers and what they hold, without type names. -/
def bareBufs (b : List (String × Option Chunk)) : List (String × Option Chunk) := b.map (fun p => (p.1, p.2.map bare))

/-- What `retrieve` gives, without type names: the chunk and the time, or the exception. -/
def bareResult : Except PyErr (Option Chunk × ℝ) → Except PyErr (Option Chunk × ℝ)
  | .error e => .error e
  | .ok (c, t) => .ok (c.map bare, t)

end Verif.Spec
