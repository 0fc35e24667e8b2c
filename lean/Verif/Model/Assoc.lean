import Verif.Model.DecMem
import Mathlib.Analysis.SpecialFunctions.Log.Basic
/-!
# Spreading activation

Models `find_chunks`, `weigh_buffer`, `calculate_strength_association` and `spreading_activation` (utilities.py:470-560)
with the counters kept in declarative memory. Activations are real numbers.
-/
namespace Verif

/-- `find_chunks(chunk, only_chunks)` (utilities.py:481-499): a dictionary from slot names to values, in slot order.
`EMPTYVALUE` is None (utilities.py:36). Slot names are distinct, so the dictionary has one entry per slot kept. -/
def findChunks (H : PyHash) (only : Bool) (c : Chunk) : List (String × Val) :=
  c.slots.filterMap fun x =>
    let v := (splitting x.2).values
    if !pyEq H v .none && !pyEq H v (.str "None") then
      if !only then some (x.1, v)
      else match v with
        | .str _ => Option.none
        | v => some (x.1, v)
    else Option.none

/-- The loops counting slots in memory (utilities.py:517-520, 528-531): the slots with a true value for which `hit`. -/
def countSlots (hit : String → Val → Bool) (cs : List Chunk) : ℕ :=
  (cs.map (fun c => c.slots.countP (fun x => (splitting x.2).values.truthy && hit x.1 (splitting x.2).values))).sum

/-- `strength_of_association - math.log(slots_j/max(1, slots_ij))` (utilities.py:537). -/
noncomputable def assocStrength (S : ℝ) (slotsJ slotsIJ : ℕ) : ℝ := S - Real.log (slotsJ / max 1 slotsIJ)

/-- `calculate_strength_association(j, i, dm, S, restricted, only_chunks)` (utilities.py:501-537): memory with its counters
afterwards, and the strength. `restricted` is a slot name or the empty string. -/
noncomputable def strengthAssoc (H : PyHash) (dm : DecMem) (S : ℝ) (restricted : String) (only : Bool) (j : Val) (i : Chunk) :
    DecMem × ℝ :=
  let vals := findChunks H only i
  let occ := vals.countP (fun p => pyEq H p.2 j)
  if !pyEq H j i.val && !(vals.any (fun p => pyEq H p.2 j)) then (dm, 0)
  else if restricted ≠ "" then
    if vals.any (fun p => p.1 == restricted && pyEq H p.2 j) then
      match scLook H restricted j dm.restr with
      | some n => (dm, assocStrength S n occ)
      | Option.none =>
        let n := 1 + countSlots (fun s v => s == restricted && pyEq H j v) (dm.data.map Prod.fst)
        ({ dm with restr := dm.restr ++ [((restricted, j), n)] }, assocStrength S n occ)
    else (dm, 0)
  else
    match vcLook H j dm.unr with
    | some n => (dm, assocStrength S n occ)
    | Option.none =>
      let n := 1 + countSlots (fun _ v => pyEq H j v) (dm.data.map Prod.fst)
      ({ dm with unr := dm.unr ++ [(j, n)] }, assocStrength S n occ)

/-- `weigh_buffer` (utilities.py:470-479). -/
noncomputable def weighBuffer (H : PyHash) (only : Bool) (k : Chunk) (W : ℝ) : ℝ :=
  let n := (findChunks H only k).length
  if n = 0 then 0 else W / n

/-- The inner loop of `spreading_activation` (utilities.py:552-557) for the values of one buffer chunk. -/
noncomputable def spreadFrom (H : PyHash) (S : ℝ) (restricted only : Bool) (i : Chunk) : List (String × Val) → DecMem → ℝ → DecMem × ℝ
  | [], dm, acc => (dm, acc)
  | p :: r, dm, acc =>
    let x := strengthAssoc H dm S (if restricted then p.1 else "") only p.2 i
    spreadFrom H S restricted only i r x.1 (acc + x.2)

/-- `spreading_activation` (utilities.py:539-560). `bufs` gives for each buffer its chunk, if any; an unknown buffer is a
KeyError. -/
noncomputable def spreading (H : PyHash) (S : ℝ) (restricted only : Bool) (bufs : List (String × Option Chunk)) (i : Chunk) :
    List (String × ℝ) → DecMem → ℝ → DecMem × Except PyErr ℝ
  | [], dm, acc => (dm, .ok acc)
  | (b, W) :: r, dm, acc =>
    match alook b bufs with
    | Option.none => (dm, .error .key)
    | some Option.none => spreading H S restricted only bufs i r dm acc
    | some (some k) =>
      let x := spreadFrom H S restricted only i (findChunks H only k) dm 0
      spreading H S restricted only bufs i r x.1 (acc + weighBuffer H only k W * x.2)

end Verif
