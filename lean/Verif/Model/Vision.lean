import Verif.Model.Environment
import Verif.Model.Motor
/-!
# Visual search

Models the class `VisualLocation` (vision.py:14-238) and `chunk_from_stimulus` (vision.py:374-415).
-/
namespace Verif

/-- Equality of dictionaries of attributes: the order does not matter. -/
def attrsEq (a b : List (String × String)) : Bool :=
  a.all (fun p => alook p.1 b == alook p.1 a) && b.all (fun p => alook p.1 a == alook p.1 b)

/-- `==` on two stimuli (dictionaries). -/
def Stim.same (a b : Stim) : Bool :=
  a.text == b.text && a.pos == b.pos && a.visDelay == b.visDelay && a.locType == b.locType && a.visType == b.visType
    && a.extVis == b.extVis && attrsEq a.attrs b.attrs

/-- Truth value of a stimulus: is there any key? -/
def Stim.truthy (a : Stim) : Bool :=
  a.text.isSome || a.pos.isSome || a.visDelay.isSome || a.locType.isSome || a.visType.isSome || a.extVis.isSome || !a.attrs.isEmpty

/-- `stim in self.recent`. -/
def inVisRecent (recent : List Stim) (s : Stim) : Bool := recent.any (fun r => r.same s)

/-- `int(q)` for a number: towards zero. -/
def truncQ (q : ℚ) : ℤ := if 0 ≤ q then ⌊q⌋ else ⌈q⌉

/-- The square of `calculate_pythagorean_distance` (utilities.py:618-631). Simplification: distances are compared through their
squares, in exact arithmetic. -/
def sqDist (a b : ℚ × ℚ) : ℚ := (a.1 - b.1) ^ 2 + (a.2 - b.2) ^ 2

/-- `chunk_from_stimulus(stimulus, "visual_location", position)` (vision.py:374-415): the registry afterwards and the chunk or the
exception. Simplification: `externally_visible` lists no control keys ('text', 'position', ...). -/
def locChunk (P : Py) (reg : Reg) (s : Stim) (position : Bool) : Reg × Except PyErr Chunk :=
  let typ := s.locType.getD "_visuallocation"
  let dict : List (String × SlotArg) :=
    (s.attrs.filter (fun p => (s.extVis.getD []).contains p.1)).map (fun p => (p.1, SlotArg.text p.2))
  if position then
    match s.pos with
    | Option.none => (reg, .error .key)
    | some (x, y) => createChunk P.toPyEnv reg typ
        (aset "screen_y" (SlotArg.text (toString (truncQ y))) (aset "screen_x" (SlotArg.text (toString (truncQ x))) dict))
  else createChunk P.toPyEnv reg typ dict

/-- vision.py:120-121: the text. A description without a value (only negations) has the value None, which no text equals. -/
def textOk (H : PyHash) (sl : Slot) (s : Stim) : Except PyErr Bool :=
  match sl with
  | .empty => .ok true
  | .vv x => match s.text with
    | Option.none => .error .key
    | some t => .ok (pyEq H x.values (.str t))

/-- vision.py:126-135: an absolute position. `pyInt` is `int` on strings, `none` is ValueError. Values that are not strings cannot
be converted and are ignored. -/
def absOk (pyInt : String → Option ℤ) (sl : Slot) (p : ℤ) : Bool :=
  match sl with
  | .vv ⟨.str s, _, _, _⟩ => if s = "" then true else match pyInt s with
    | some n => n == p
    | Option.none => true
  | _ => true

/-- vision.py:138-152: a position relative to a given number. The ValueError of `int` is not caught. -/
def relOk (pyInt : String → Option ℤ) (sl : Slot) (p : ℤ) : Except PyErr Bool :=
  match sl with
  | .vv ⟨.str s, _, _, _⟩ => match s.toList with
    | '<' :: r => match pyInt (String.ofList r) with
      | some n => .ok (!decide (n ≤ p))
      | Option.none => .error .value
    | '>' :: r => match pyInt (String.ofList r) with
      | some n => .ok (!decide (p ≤ n))
      | Option.none => .error .value
    | _ => .ok true
  | _ => .ok true

/-- `slot.values == word`, false if the slot is empty (AttributeError, caught). -/
def slotIs (H : PyHash) (sl : Slot) (word : String) : Bool :=
  match sl with
  | .empty => false
  | .vv x => pyEq H x.values (.str word)

/-- Is the slot given at all? -/
def slotGiven : Slot → Bool
  | .empty => false
  | .vv _ => true

/-- vision.py:155-190: the comparisons with the best position so far, `cur`; true if the object is not skipped. In line 172
an empty `screen_x` raises AttributeError before `screen_y` is looked at. -/
def notWorse (H : PyHash) (sx sy : Slot) (focus : ℚ × ℚ) (cur : ℤ × ℤ) (p : ℤ × ℤ) : Bool :=
  !(slotIs H sx "lowest" && decide (cur.1 < p.1)) && !(slotIs H sx "highest" && decide (p.1 < cur.1)) &&
  !(slotIs H sy "lowest" && decide (cur.2 < p.2)) && !(slotIs H sy "highest" && decide (p.2 < cur.2)) &&
  !(slotGiven sx && (slotIs H sx "closest" || slotIs H sy "closest") &&
    decide (sqDist focus ((cur.1 : ℚ), (cur.2 : ℚ)) < sqDist focus ((p.1 : ℚ), (p.2 : ℚ)))) &&
  !(slotIs H sx "onewayclosest" && decide (|focus.1 - cur.1| < |focus.1 - p.1|)) &&
  !(slotIs H sy "onewayclosest" && decide (|focus.2 - cur.2| < |focus.2 - p.2|))

/-- vision.py:110-118: the extra test `attended`; `some false` if False or 'False' is asked for, `some true` for anything else. -/
def attendedOk (att : Option Bool) (finst : ℕ) (recent : List Stim) (s : Stim) : Bool :=
  match att with
  | Option.none => true
  | some false => !(finst != 0 && inVisRecent recent s)
  | some true => !(finst != 0 && !inVisRecent recent s)

/-- The local variables of `find`: `found`, `found_stim`, and the position of the object found (`current_x`, `current_y`, from which
`closest`, `x_closest` and `y_closest` are computed). -/
structure FindSt where
  found : Option Chunk
  stim : Option Stim
  cur : Option (ℤ × ℤ)

/-- What `find` depends on besides the screen. -/
structure FindCfg where
  P : Py
  pyInt : String → Option ℤ
  search : Chunk
  att : Option Bool
  finst : ℕ
  recent : List Stim
  focus : ℚ × ℚ

/-- `chunk_used_for_search.n` (chunks.py:171-175). -/
def searchSlot (c : Chunk) (n : String) : Except PyErr Slot :=
  match alook n c.slots with
  | some s => .ok s
  | Option.none => .error .attribute

/-- vision.py:110-190 for one object: is it skipped? Answers with its position if not. A request always has the three slots. -/
def examine (F : FindCfg) (sx sy sv : Slot) (cur : Option (ℤ × ℤ)) (s : Stim) : Except PyErr (Option (ℤ × ℤ)) :=
  if !attendedOk F.att F.finst F.recent s then .ok Option.none else
  match textOk F.P.H sv s with
  | .error e => .error e
  | .ok false => .ok Option.none
  | .ok true =>
    match s.pos with
    | Option.none => .error .key
    | some (x, y) =>
      let p := (truncQ x, truncQ y)
      if !absOk F.pyInt sx p.1 then .ok Option.none
      else if !absOk F.pyInt sy p.2 then .ok Option.none
      else match relOk F.pyInt sx p.1 with
      | .error e => .error e
      | .ok false => .ok Option.none
      | .ok true => match relOk F.pyInt sy p.2 with
        | .error e => .error e
        | .ok false => .ok Option.none
        | .ok true =>
          match cur with
          | Option.none => .ok (some p)
          | some c => if notWorse F.P.H sx sy F.focus c p then .ok (some p) else .ok Option.none

/-- The loop of `find` (vision.py:107-206). -/
def findLoop (F : FindCfg) (sx sy sv : Slot) : Reg → FindSt → Screen → Reg × Except PyErr (Option Chunk × Option Stim)
  | reg, st, [] => (reg, .ok (st.found, st.stim))
  | reg, st, (_, s) :: r =>
    match examine F sx sy sv st.cur s with
    | .error e => (reg, .error e)
    | .ok Option.none => findLoop F sx sy sv reg st r
    | .ok (some p) =>
      match locChunk F.P reg s false with
      | (reg1, .error e) => (reg1, .error e)
      | (reg1, .ok v) =>
        if (v.le F.P.H BV.init F.search).1 then
          match locChunk F.P reg1 s true with
          | (reg2, .error e) => (reg2, .error e)
          | (reg2, .ok c) => findLoop F sx sy sv reg2 ⟨some c, some s, some p⟩ r
        else findLoop F sx sy sv reg1 { st with stim := some s } r

/-- `VisualLocation.find(otherchunk, actrvariables, extra_tests)` (vision.py:90-208). Without a screen the loop over None is a
TypeError. -/
def visFind (P : Py) (pyInt : String → Option ℤ) (reg : Reg) (other : Chunk) (bv : BV) (att : Option Bool) (finst : ℕ)
    (recent : List Stim) (focus : ℚ × ℚ) (screen : Option Screen) : Reg × Except PyErr (Option Chunk × Option Stim) :=
  match resolveAll P bv false (removeUnused P.H other) with
  | .error e => (reg, .error e)
  | .ok mods =>
    match createChunk P.toPyEnv reg "_visuallocation" (mods.map (fun p => (p.1, SlotArg.vv p.2))) with
    | (reg1, .error e) => (reg1, .error e)
    | (reg1, .ok c) =>
      match screen with
      | Option.none => (reg1, .error .type)
      | some sc =>
        match searchSlot c "screen_x", searchSlot c "screen_y", searchSlot c "value" with
        | .ok sx, .ok sy, .ok sv => findLoop ⟨P, pyInt, c, att, finst, recent, focus⟩ sx sy sv reg1 ⟨Option.none, Option.none, Option.none⟩ sc
        | _, _, _ => (reg1, .error .attribute)

/-- The loop of `automatic_search` (vision.py:217-230); `best` is the object found so far with its chunk and squared distance. -/
def autoLoop (P : Py) (recent : List Stim) (focus : ℚ × ℚ) :
    Reg → Option (Chunk × Stim × ℚ) → List Stim → Reg × Except PyErr (Option (Chunk × Stim))
  | reg, best, [] => (reg, .ok (best.map (fun b => (b.1, b.2.1))))
  | reg, best, s :: r =>
    if inVisRecent recent s then autoLoop P recent focus reg best r
    else
      match s.pos with
      | Option.none => (reg, .error .key)
      | some p =>
        if (match best with | Option.none => false | some b => decide (b.2.2 < sqDist focus p)) then
          autoLoop P recent focus reg best r
        else
          match locChunk P reg s true with
          | (reg1, .error e) => (reg1, .error e)
          | (reg1, .ok c) => autoLoop P recent focus reg1 (some (c, s, sqDist focus p)) r

/-- `VisualLocation.automatic_search(stim)` (vision.py:210-232). -/
def autoSearch (P : Py) (reg : Reg) (recent : List Stim) (focus : ℚ × ℚ) (stims : List Stim) :
    Reg × Except PyErr (Option (Chunk × Stim)) := autoLoop P recent focus reg Option.none stims

/-- `if self.finst and found_stim: ...` (vision.py:61-64, 74-77). -/
def visRemember (finst : ℕ) (recent : List Stim) (found : Option Stim) : List Stim :=
  match found with
  | Option.none => recent
  | some s =>
    if finst != 0 && s.truthy then
      let r := recent ++ [s]
      if finst < r.length then r.tail else r
    else recent

end Verif
