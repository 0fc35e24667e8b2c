import Mathlib.Data.Rat.Defs
import Mathlib.Data.List.Basic
import Mathlib.Algebra.Order.Ring.Rat
/-!
# Chunks: values, hashing, equality and matching

Models `pyactr/chunks.py` (class `Chunk`) and the parts of `pyactr/utilities.py` it uses.
-/
namespace Verif

/-- `utilities.VarvalClass` (utilities.py:38), a named tuple `values, variables, negvalues, negvariables`.
Here `variables`, `negvariables` are called `vars`, `negvars`. `variables` is `None` or a string; `negvalues`/`negvariables` are tuples. -/
structure VVOf (V : Type) where
  values : V
  vars : Option String
  negvalues : List V
  negvars : List String
deriving Repr

/-- The content of a slot of an `actrchunk`: the class-level `__emptyvalue` (chunks.py:87,137) or a `VarvalClass`
tuple (chunks.py:99,128). -/
inductive SlotOf (V : Type) where
  | empty
  | vv (x : VVOf V)
deriving Repr

/-- Python values that occur in the slots: `None`, an `EmptyValue` instance (chunks.py:63-81), a string, or another
chunk. `Chunk.__init__` (chunks.py:98-128) turns everything else into a string or rejects it.
Simplification: a chunk used as a value has no bound variables of its own (`boundvars == {}`, chunks.py:93). -/
inductive Val where
  | none
  | empty
  | str (s : String)
  | chunk (typ : String) (slots : List (String × SlotOf Val))
deriving Repr

abbrev VarVal := VVOf Val
abbrev Slot := SlotOf Val
abbrev Slots := List (String × Slot)

/-- A chunk (chunks.py:54): type name and slots in the order of the named tuple's fields. The bound variables
(`self.boundvars`) are passed separately. -/
structure Chunk where
  typ : String
  slots : Slots
deriving Repr

/-- The chunk as a slot value. -/
def Chunk.val (c : Chunk) : Val := .chunk c.typ c.slots

/-- The keys used in the tuples hashed by `Chunk.__hash__` (chunks.py:187,197). -/
inductive HKey where
  | values | negvalues | vars | negvars
deriving DecidableEq, Repr

/-- One element of the tuple hashed by `Chunk.__hash__` (chunks.py:194-207): `(slot, (key, hash))`.
A slot with the empty name gives `(key, hash)` in Python; here that is `slot = ""`. -/
structure HItem where
  slot : String
  key : HKey
  h : Int
deriving DecidableEq, Repr

/-- CPython's hash functions and set iteration order, as a parameter. `order` gives the iteration order of a set from
the hashes of its elements in insertion order. -/
structure PyHash where
  none : Int
  str : String → Int
  tup : List HItem → Int
  order : List Int → List Int
  order_perm : ∀ l, (order l).Perm l

/-- No collisions between the hashes of strings, tuples and None. -/
structure PyHash.CollisionFree (H : PyHash) : Prop where
  str_inj : ∀ s t, H.str s = H.str t → s = t
  tup_inj : ∀ s t, H.tup s = H.tup t → s = t
  str_tup : ∀ s t, H.str s ≠ H.tup t
  none_str : ∀ s, H.none ≠ H.str s
  none_tup : ∀ t, H.none ≠ H.tup t

/-- What Python can observe of a value through `==` and `hash`: its kind and, for a chunk, its hash. -/
inductive View where
  | none | empty | str (s : String) | chunk (h : Int)
deriving DecidableEq, Repr

/-- `hash(v)`; `EmptyValue.__hash__` is `hash(None)` (chunks.py:77-78). -/
def View.hash (H : PyHash) : View → Int
  | .none => H.none
  | .empty => H.none
  | .str s => H.str s
  | .chunk h => h

/-- `a == b`. `Chunk.__eq__` compares hashes (chunks.py:165-169) and, through Python's reflected comparison, also decides
`str == chunk` and `None == chunk`; `EmptyValue.__eq__` (chunks.py:71-75) accepts None and 'None'. -/
def View.eq (H : PyHash) : View → View → Bool
  | .none, .none => true
  | .none, .empty => true
  | .none, .str _ => false
  | .none, .chunk h => h == H.none
  | .empty, .none => true
  | .empty, .empty => true
  | .empty, .str s => s == "None"
  | .empty, .chunk h => h == H.none || h == H.str "None"
  | .str _, .none => false
  | .str s, .empty => s == "None"
  | .str s, .str t => s == t
  | .str s, .chunk h => h == H.str s
  | .chunk h, v => h == v.hash H

/-- Membership test used by sets and dictionaries: equal hash and `stored == key`. -/
def View.keyEq (H : PyHash) (stored key : View) : Bool :=
  stored.hash H == key.hash H && View.eq H stored key

/-- `set.add`. -/
def View.setAdd (H : PyHash) (s : List View) (v : View) : List View :=
  if s.any (fun w => View.keyEq H w v) then s else s ++ [v]

/-- Iterating a set and hashing its elements. -/
def View.setHashes (H : PyHash) (s : List View) : List Int := H.order (s.map (View.hash H))

/-- Truthiness of `variables` (None and "" are false). -/
def optStrTruthy : Option String → Bool
  | Option.none => false
  | some s => s != ""

/-- `removeempty` on one `VarvalClass` slot (chunks.py:334): is the slot kept? -/
def VVOf.nonEmpty (H : PyHash) (x : VVOf View) : Bool :=
  !(View.eq H x.values .empty) || optStrTruthy x.vars || !x.negvars.isEmpty || !x.negvalues.isEmpty

/-- The names looked up for `variables` in `hash_func` (chunks.py:187-189). Note line 189: `variables` is a string, so the
loop runs over its *characters*. -/
def slotChars (x : VVOf View) : List String :=
  if optStrTruthy x.vars then ((x.vars.getD "").toList).map (fun c => c.toString) else []

/-- `temp_varval["values"]` (chunks.py:186-199): the values of the bound one-letter variables and the literal value. -/
def slotVals (H : PyHash) (lk : String → Option View) (x : VVOf View) : List View :=
  let vals₀ := ((slotChars x).filterMap lk).foldl (View.setAdd H) []
  if View.eq H x.values .empty then vals₀ else View.setAdd H vals₀ x.values

/-- `temp_varval["negvalues"]` (chunks.py:186-201): the values of bound negated variables and the negated literals. -/
def slotNegs (H : PyHash) (lk : String → Option View) (x : VVOf View) : List View :=
  x.negvalues.foldl (View.setAdd H) ((x.negvars.filterMap lk).foldl (View.setAdd H) [])

/-- Names that are not bound are hashed themselves (chunks.py:192-196). -/
def unresolvedItems (H : PyHash) (lk : String → Option View) (n : String) (k : HKey) (names : List String) : List HItem :=
  names.filterMap (fun c => match lk c with
    | some _ => Option.none
    | Option.none => some ⟨n, k, H.str c⟩)

/-- The body of the loop of `hash_func` for one slot kept by `removeempty` (chunks.py:184-207). `lk` looks up
`self.boundvars["=" + name]`. -/
def slotItems (H : PyHash) (lk : String → Option View) (n : String) (x : VVOf View) : List HItem :=
  unresolvedItems H lk n .vars (slotChars x) ++ unresolvedItems H lk n .negvars x.negvars
    ++ (View.setHashes H (slotVals H lk x)).map (fun h => ⟨n, .values, h⟩)
    ++ (View.setHashes H (slotNegs H lk x)).map (fun h => ⟨n, .negvalues, h⟩)

/-- The tuple hashed by `Chunk.__hash__` (chunks.py:183-209), with `removeempty` (chunks.py:320-340). -/
def hashItems (H : PyHash) (lk : String → Option View) : List (String × SlotOf View) → List HItem
  | [] => []
  | (_, .empty) :: r => hashItems H lk r
  | (n, .vv x) :: r => (if x.nonEmpty H then slotItems H lk n x else []) ++ hashItems H lk r

mutual
/-- The view of a value; a chunk is seen through its hash, computed with no bound variables. -/
def Val.view (H : PyHash) : Val → View
  | .none => .none
  | .empty => .empty
  | .str s => .str s
  | .chunk _ sl => .chunk (H.tup (hashItems H (fun _ => Option.none) (viewSlots H sl)))
def viewSlots (H : PyHash) : List (String × SlotOf Val) → List (String × SlotOf View)
  | [] => []
  | (n, s) :: r => (n, viewSlot H s) :: viewSlots H r
def viewSlot (H : PyHash) : SlotOf Val → SlotOf View
  | .empty => .empty
  | .vv ⟨v, vr, nv, nvr⟩ => .vv ⟨v.view H, vr, viewVals H nv, nvr⟩
def viewVals (H : PyHash) : List Val → List View
  | [] => []
  | v :: r => v.view H :: viewVals H r
end

/-- `hash(v)` for a slot value. -/
def Val.hash (H : PyHash) (v : Val) : Int := (v.view H).hash H
/-- Python's `a == b` on slot values. -/
def pyEq (H : PyHash) (a b : Val) : Bool := View.eq H (a.view H) (b.view H)
/-- Dictionary/set key equality on slot values. -/
def keyEq (H : PyHash) (stored key : Val) : Bool := View.keyEq H (stored.view H) (key.view H)

/-- Python truthiness of a slot value: None and "" are false; an `EmptyValue` instance is true (no `__bool__`); a chunk is
false iff it has no slots (`__len__`, chunks.py:216-217). -/
def Val.truthy : Val → Bool
  | .none => false
  | .empty => true
  | .str s => s != ""
  | .chunk _ sl => !sl.isEmpty

/-- The dictionary of bound variables (`boundvars`, `actrvariables`): keys "=x" are in `pos`, keys "~=x" (bound to sets)
in `neg`; the prefix is left out. -/
structure BV where
  pos : List (String × Val)
  neg : List (String × List Val)
deriving Repr

def BV.init : BV := ⟨[], []⟩

/-- Lookup in an association list standing for a dictionary. -/
def alook {α : Type} (n : String) : List (String × α) → Option α
  | [] => Option.none
  | (m, a) :: r => if m = n then some a else alook n r

/-- `d[n] = a`, keeping the position of an existing key. -/
def aset {α : Type} (n : String) (a : α) : List (String × α) → List (String × α)
  | [] => [(n, a)]
  | (m, b) :: r => if m = n then (m, a) :: r else (m, b) :: aset n a r

/-- `boundvars["=" + n]`. -/
def BV.get (bv : BV) (n : String) : Option Val := alook n bv.pos
/-- `boundvars.get("~=" + n, set())`. -/
def BV.negGet (bv : BV) (n : String) : List Val := (alook n bv.neg).getD []
/-- `boundvars.update({"=" + n: v})`. -/
def BV.bind (bv : BV) (n : String) (v : Val) : BV := { bv with pos := aset n v bv.pos }
/-- `boundvars.setdefault("~=" + n, set([])).add(v)` (chunks.py:296). -/
def BV.negAdd (H : PyHash) (bv : BV) (n : String) (v : Val) : BV :=
  let s := bv.negGet n
  { bv with neg := aset n (if s.any (fun w => keyEq H w v) then s else s ++ [v]) bv.neg }

/-- `hash(chunk)` with bound variables `bv` (chunks.py:180-210). The cache of lines 181-182 returns the same value (it is
keyed by the bound variables) and is left out. -/
def Chunk.hash (H : PyHash) (bv : BV) (c : Chunk) : Int :=
  H.tup (hashItems H (fun n => (bv.get n).map (Val.view H)) (viewSlots H c.slots))

/-- `self == other` where `self` has bound variables `bv` and `other` has none (chunks.py:165-169). -/
def Chunk.eq (H : PyHash) (bv : BV) (a b : Chunk) : Bool := a.hash H bv == b.hash H BV.init

/-- `utilities.splitting` (utilities.py:145-152). -/
def splitting : Slot → VarVal
  | .empty => ⟨.none, Option.none, [], []⟩
  | .vv x => x

/-- The value of slot `n` of the other chunk used by `match` (chunks.py:256-262): None if the slot does not exist,
the `values` field of a `VarvalClass`, otherwise the empty value. -/
def matchingVal (other : Chunk) (n : String) : Val :=
  match alook n other.slots with
  | Option.none => .none
  | some .empty => .empty
  | some (.vv x) => x.values

/-- `Chunk._similarities` (chunks.py:89): a dictionary keyed by pairs. -/
abbrev SimTable := List ((Val × Val) × ℚ)

/-- Lookup of a pair key. -/
def simLook (H : PyHash) (a b : Val) : SimTable → Option ℚ
  | [] => Option.none
  | ((x, y), q) :: r => if keyEq H x a && keyEq H y b then some q else simLook H a b r

/-- Arguments of `match`: `partialmatching`, `mismatch_penalty`, and the similarity table. -/
structure MatchCfg where
  partialm : Bool
  penalty : ℚ
  sims : SimTable

/-- `utilities.get_similarity` (utilities.py:154-159); note the swapped pair. -/
def getSimilarity (H : PyHash) (cfg : MatchCfg) (val1 val2 : Val) : ℚ :=
  (simLook H val2 val1 cfg.sims).getD (-cfg.penalty)

/-- State of the matching loop: bound variables and accumulated similarity. -/
structure MState where
  bv : BV
  sim : ℚ

/-- What `match` does on a violated constraint: `similarity += ...` with partial matching, otherwise `return False`.
`Except.error bv` stands for `return False`, with the bound variables as they are then. -/
def penalise (H : PyHash) (cfg : MatchCfg) (st : MState) (a b : Val) : Except BV MState :=
  if cfg.partialm then .ok { st with sim := st.sim + getSimilarity H cfg a b } else .error st.bv

/-- A loop whose body may `return False`. -/
def loopE {α : Type} (f : MState → α → Except BV MState) : MState → List α → Except BV MState
  | st, [] => .ok st
  | st, a :: r => match f st a with
    | .ok st' => loopE f st' r
    | .error bv => .error bv

/-- chunks.py:270-275: the values excluded by `~=x`. -/
def matchVarNeg (H : PyHash) (cfg : MatchCfg) (mv : Val) (st : MState) (each : Val) : Except BV MState :=
  if pyEq H each mv then penalise H cfg st each mv else .ok st

/-- chunks.py:276-283: compare with, or create, the binding of `=x`. -/
def matchVarPos (H : PyHash) (cfg : MatchCfg) (mv : Val) (var : String) (st : MState) : Except BV MState :=
  match st.bv.get var with
  | some b => if pyEq H b mv then .ok st else penalise H cfg st b mv
  | Option.none => .ok { st with bv := st.bv.bind var mv }

/-- chunks.py:265-283: variables. -/
def matchVar (H : PyHash) (cfg : MatchCfg) (mv : Val) (vr : Option String) (st : MState) : Except BV MState :=
  match vr with
  | Option.none => .ok st
  | some var =>
    if var = "" then .ok st else
    match loopE (matchVarNeg H cfg mv) st (st.bv.negGet var) with
    | .error bv => .error bv
    | .ok st' => matchVarPos H cfg mv var st'

/-- chunks.py:285-296: one negated variable. -/
def matchNegVar (H : PyHash) (cfg : MatchCfg) (mv : Val) (st : MState) (var : String) : Except BV MState :=
  match st.bv.get var with
  | some b =>
    if pyEq H b mv then
      match penalise H cfg st b mv with
      | .error bv => .error bv
      | .ok st' => .ok { st' with bv := st'.bv.negAdd H var mv }
    else .ok { st with bv := st.bv.negAdd H var mv }
  | Option.none => .ok { st with bv := st.bv.negAdd H var mv }

/-- chunks.py:300-306: the value. -/
def matchValue (H : PyHash) (cfg : MatchCfg) (mv : Val) (v : Val) (st : MState) : Except BV MState :=
  if v.truthy && !pyEq H v .none && !pyEq H v mv then penalise H cfg st v mv else .ok st

/-- chunks.py:310: does the negated value `negval` exclude `mv`? -/
def negValHit (H : PyHash) (negval mv : Val) : Bool :=
  pyEq H negval mv || ((keyEq H .empty negval || keyEq H (.str "None") negval) && pyEq H mv .empty)

/-- chunks.py:308-314: one negated value. -/
def matchNegVal (H : PyHash) (cfg : MatchCfg) (mv : Val) (st : MState) (negval : Val) : Except BV MState :=
  if negValHit H negval mv then penalise H cfg st negval mv else .ok st

/-- The body of the loop of `match` for one slot (chunks.py:254-314). -/
def matchSlot (H : PyHash) (cfg : MatchCfg) (other : Chunk) (st : MState) (x : String × Slot) : Except BV MState :=
  let mv := matchingVal other x.1
  let varval := splitting x.2
  match matchVar H cfg mv varval.vars st with
  | .error bv => .error bv
  | .ok st =>
    match loopE (matchNegVar H cfg mv) st varval.negvars with
    | .error bv => .error bv
    | .ok st =>
      match matchValue H cfg mv varval.values st with
      | .error bv => .error bv
      | .ok st => loopE (matchNegVal H cfg mv) st varval.negvalues

/-- The loop of `match` over the slots (chunks.py:254-314). -/
def matchSlots (H : PyHash) (cfg : MatchCfg) (other : Chunk) (st : MState) (xs : Slots) : Except BV MState :=
  loopE (matchSlot H cfg other) st xs

/-- `Chunk.match` (chunks.py:246-318). `.ok st` means the method returns `st.sim` with partial matching (or 0 from
line 252) and True (or 0) without; `.error bv` means it returns False. -/
def Chunk.matchC (H : PyHash) (cfg : MatchCfg) (bv : BV) (self other : Chunk) : Except BV MState :=
  if self.eq H bv other then .ok ⟨bv, 0⟩ else matchSlots H cfg other ⟨bv, 0⟩ self.slots

/-- Matching without partial matching. -/
def exactCfg (sims : SimTable) : MatchCfg := ⟨false, 1, sims⟩

/-- `self <= other` (chunks.py:240-244) with the bound variables afterwards. Without partial matching the similarity table
is not consulted. -/
def Chunk.le (H : PyHash) (bv : BV) (self other : Chunk) : Bool × BV :=
  if self.eq H bv other then (true, bv) else
  match self.matchC H (exactCfg []) bv other with
  | .ok st => (true, st.bv)
  | .error bv => (false, bv)

/-- `self < other` (chunks.py:234-238). -/
def Chunk.lt (H : PyHash) (bv : BV) (self other : Chunk) : Bool × BV :=
  if self.eq H bv other then (false, bv) else
  match self.matchC H (exactCfg []) bv other with
  | .ok st => (true, st.bv)
  | .error bv => (false, bv)

end Verif
