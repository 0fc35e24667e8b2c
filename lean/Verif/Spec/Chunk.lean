import Verif.Model.Chunk
/-!
# Specification of chunk comparison

Written without hashes, bound-variable dictionaries or loops: only the data types are shared with the model.
-/
namespace Verif.Spec
open Verif

/-- What a chunk without variables and negations says: the non-empty slots, in order, recursively; type names are
left out. -/
inductive Content where
  | none
  | str (s : String)
  | chunk (l : List (String × Content))
deriving Repr

/-- None, the empty value and the string 'None' all stand for "nothing here". -/
def Noneish : Val → Prop
  | .none => True
  | .empty => True
  | .str s => s = "None"
  | .chunk _ _ => False

instance : DecidablePred Noneish := fun v => by
  cases v <;> simp only [Noneish] <;> infer_instance

mutual
/-- The content of a value. -/
def content : Val → Content
  | .none => .none
  | .empty => .none
  | .str s => .str s
  | .chunk _ sl => .chunk (contentSlots sl)
/-- The content of a list of slots: empty slots are left out. -/
def contentSlots : List (String × SlotOf Val) → List (String × Content)
  | [] => []
  | (n, s) :: r => contentSlot n s ++ contentSlots r
def contentSlot (n : String) : SlotOf Val → List (String × Content)
  | .empty => []
  | .vv ⟨v, _, _, _⟩ => if Noneish v then [] else [(n, content v)]
end

mutual
/-- A value that contains no variables and no negations at any depth. -/
def PlainVal : Val → Prop
  | .none => True
  | .empty => True
  | .str _ => True
  | .chunk _ sl => PlainSlots sl
def PlainSlots : List (String × SlotOf Val) → Prop
  | [] => True
  | (_, s) :: r => PlainSlot s ∧ PlainSlots r
def PlainSlot : SlotOf Val → Prop
  | .empty => True
  | .vv ⟨v, vr, nv, nvr⟩ => PlainVal v ∧ vr = Option.none ∧ nv = [] ∧ nvr = []
end

/-- A chunk without variables and negations. -/
def Plain (c : Chunk) : Prop := PlainSlots c.slots

/-- The content of a chunk. -/
def chunkContent (c : Chunk) : List (String × Content) := contentSlots c.slots

/-- When two data values count as the same: both absent/empty, the empty value and the string 'None', equal strings, or
chunks with the same content. (A slot that does not exist is not the same as the string 'None'.) -/
def SameVal : Val → Val → Prop
  | .none, .none => True
  | .none, .empty => True
  | .empty, .none => True
  | .empty, .empty => True
  | .empty, .str s => s = "None"
  | .str s, .empty => s = "None"
  | .str s, .str t => s = t
  | .chunk _ a, .chunk _ b => contentSlots a = contentSlots b
  | _, _ => False

/-- `d` has the value `v` in its slot `n`. -/
inductive SlotHas (d : Chunk) (n : String) : Val → Prop
  | missing : (∀ s, (n, s) ∉ d.slots) → SlotHas d n .none
  | empty : (n, SlotOf.empty) ∈ d.slots → SlotHas d n .empty
  | val {x : VarVal} : (n, SlotOf.vv x) ∈ d.slots → SlotHas d n x.values

/-- Requirements that say nothing: no value, the empty string, and a chunk without any slot. -/
def NoRequirement : Val → Prop
  | .none => True
  | .empty => True
  | .str s => s = ""
  | .chunk _ sl => sl = []

/-- The pattern's value `v` accepts the data value `w`. -/
def Accepts (v w : Val) : Prop := NoRequirement v ∨ SameVal v w

/-- The pattern's negated value `v` forbids the data value `w`. -/
def Forbids (v w : Val) : Prop := SameVal v w ∨ (Noneish v ∧ Noneish w)

/-- The declarative meaning of matching a pattern without variables against a chunk. -/
def Means (p d : Chunk) : Prop :=
  ∀ n x w, (n, SlotOf.vv x) ∈ p.slots → SlotHas d n w →
    Accepts x.values w ∧ ∀ v ∈ x.negvalues, ¬ Forbids v w

/-- A pattern without variables (negated values allowed), whose values contain no variables either. -/
def VarFree (p : Chunk) : Prop :=
  ∀ n x, (n, SlotOf.vv x) ∈ p.slots → x.vars = Option.none ∧ x.negvars = [] ∧ PlainVal x.values ∧
    ∀ v ∈ x.negvalues, PlainVal v

/-- Slot names are pairwise different (they are the fields of a named tuple). -/
def Named (c : Chunk) : Prop := (c.slots.map Prod.fst).Nodup

end Verif.Spec

namespace Verif.Spec
open Verif

/-- `d` is a data chunk: no variables or negations, distinct slot names, no slot literally holding Python's None
(slots without a value hold the empty value). -/
structure DataChunk (d : Chunk) : Prop where
  plain : Plain d
  named : Named d
  noNone : ∀ n x, (n, SlotOf.vv x) ∈ d.slots → x.values ≠ .none

/-- `d` has every slot that `p` mentions (for instance because they are of the same type). -/
def Covers (d p : Chunk) : Prop := ∀ n s, (n, s) ∈ p.slots → ∃ s', (n, s') ∈ d.slots

/-- A domain of values within which `SameVal` is an equivalence: values without variables, among which Python's None (the value
of a slot that does not exist) and the string 'None' do not both occur. -/
structure Domain (D : Val → Prop) : Prop where
  plain : ∀ v, D v → PlainVal v
  noClash : D .none → ¬ D (.str "None")

/-- Data, but not None: the values of chunks that have all slots asked about. -/
def DataVal (v : Val) : Prop := PlainVal v ∧ v ≠ .none

/-- Data, but not 'None': the values of chunks that may lack some of the slots asked about, as long as none of their slots
holds the string 'None'. -/
def NoNoneStr (v : Val) : Prop := PlainVal v ∧ v ≠ .str "None"

/-- All slots of `d` that `p` mentions have values in the domain. -/
def InDomain (D : Val → Prop) (d p : Chunk) : Prop := ∀ n s w, (n, s) ∈ p.slots → SlotHas d n w → D w

/-- The bindings a rule starts from: values of the domain, and no variable bound to a value excluded for it. -/
structure GoodBV (D : Val → Prop) (bv : BV) : Prop where
  pos : ∀ y v, bv.get y = some v → D v
  neg : ∀ y v, v ∈ bv.negGet y → D v
  ok : ∀ y v w, bv.get y = some v → w ∈ bv.negGet y → ¬ SameVal v w

/-- An assignment of values to variables that makes pattern `p` true of `d` and extends the bindings `bv`. -/
structure Solution (D : Val → Prop) (bv : BV) (p d : Chunk) (σ : String → Option Val) : Prop where
  data : ∀ y v, σ y = some v → D v
  ext : ∀ y v, bv.get y = some v → σ y = some v
  pos : ∀ n x y w, (n, SlotOf.vv x) ∈ p.slots → x.vars = some y → y ≠ "" → SlotHas d n w →
    ∃ v, σ y = some v ∧ SameVal v w
  neg : ∀ n x y w v, (n, SlotOf.vv x) ∈ p.slots → y ∈ x.negvars → SlotHas d n w → σ y = some v → ¬ SameVal v w
  excl : ∀ y v w, σ y = some v → w ∈ bv.negGet y → ¬ SameVal v w
  lit : Means p d

/-- A pattern whose literal values are plain. -/
def PlainLits (p : Chunk) : Prop :=
  ∀ n x, (n, SlotOf.vv x) ∈ p.slots → PlainVal x.values ∧ ∀ v ∈ x.negvalues, PlainVal v

end Verif.Spec

namespace Verif.Spec
open Verif Classical

/-- The slots are in strictly increasing order of their names (with "_" appended), as `Chunk.__init__` produces them. -/
def SortedSlots (c : Chunk) : Prop := c.slots.Pairwise (fun a b => a.1 ++ "_" < b.1 ++ "_")

/-- Explicitly required emptiness only for slots the other chunk has. -/
def NoneCovered (p d : Chunk) : Prop :=
  ∀ n x, (n, SlotOf.vv x) ∈ p.slots → x.values = .str "None" → ∃ s, (n, s) ∈ d.slots

/-- Explicitly required emptiness only where the other chunk does not have Python's None: the slot exists, and was written. -/
def NoneFilled (p d : Chunk) : Prop :=
  ∀ n x w, (n, SlotOf.vv x) ∈ p.slots → x.values = .str "None" → SlotHas d n w → w ≠ .none

/-- A fully specified chunk: data in which every slot that is written down has a real value (not None, 'None', the empty
string, or a chunk without slots). -/
structure Solid (d : Chunk) : Prop where
  data : DataChunk d
  sorted : SortedSlots d
  real : ∀ n x, (n, SlotOf.vv x) ∈ d.slots → ¬ Noneish x.values ∧ ¬ NoRequirement x.values

/-- The assignment after a slot with positive variable `vr` was compared with the value `w`. -/
def bindVar (σ : String → Option Val) (vr : Option String) (w : Val) : String → Option Val :=
  fun y => match σ y with
    | some v => some v
    | Option.none => if vr = some y ∧ y ≠ "" then some w else Option.none

/-- The excluded values after a slot with negated variables `l` was compared with `w`; a value already excluded (same
content) is not repeated. -/
noncomputable def excludeVars (ε : String → List Val) (l : List String) (w : Val) : String → List Val :=
  fun y => if y ∈ l ∧ ¬ ∃ v ∈ ε y, content v = content w then ε y ++ [w] else ε y

/-- The penalties one slot contributes, if its value in the other chunk is `w`: one for each violated constraint. -/
noncomputable def slotScore (s : Val → Val → ℚ) (σ : String → Option Val) (ε : String → List Val) (w : Val) (x : VarVal) : ℚ :=
  (match x.vars with
    | Option.none => 0
    | some y => if y = "" then 0 else
        ((ε y).map (fun e => if SameVal e w then s e w else 0)).sum +
        (match σ y with
          | some b => if SameVal b w then 0 else s b w
          | Option.none => 0))
  + (x.negvars.map (fun z => match bindVar σ x.vars w z with
      | some b => if SameVal b w then s b w else 0
      | Option.none => 0)).sum
  + (if Accepts x.values w then 0 else s x.values w)
  + (x.negvalues.map (fun v => if Forbids v w then s v w else 0)).sum

/-- The penalty of a list of slots: the sum over the slots, where a variable stands for its given value or else for the
value of the first slot in which it occurs. `val n` is the value of slot `n` of the other chunk. -/
noncomputable def score (s : Val → Val → ℚ) (val : String → Val) :
    (String → Option Val) → (String → List Val) → Slots → ℚ
  | _, _, [] => 0
  | σ, ε, (_, .empty) :: r => score s val σ ε r
  | σ, ε, (n, .vv x) :: r => slotScore s σ ε (val n) x +
      score s val (bindVar σ x.vars (val n)) (excludeVars ε x.negvars (val n)) r

end Verif.Spec
