import Verif.Model.Compile
/-!
# Specification of production compilation

Independent of the functions of `Model/Compile`; only dictionary lookup and Python's `==` on chunks are shared.
-/
namespace Verif.Spec
open Verif

/-! ## Which compilations are unsafe -/

/-- The rule makes a request to the buffer. -/
def RequestsBuf (rhs : List (Key × RVal)) (b : String) : Prop := ∃ v, ((⟨'+', b⟩ : Key), v) ∈ rhs

/-- The rule tests the content of the buffer. -/
def TestsBuf (lhs : List (Key × LVal)) (b : String) : Prop := ∃ v, ((⟨'=', b⟩ : Key), v) ∈ lhs

/-- The rule asks the buffer something other than whether its state is busy. -/
def QueriesOther (lhs : List (Key × LVal)) (b : String) : Prop :=
  ∃ d q, ((⟨'?', b⟩ : Key), LVal.dict d) ∈ lhs ∧ q ∈ d ∧ q ≠ ("state", "busy")

/-- The rule asks the buffer whether its state is error. -/
def QueriesError (lhs : List (Key × LVal)) (b : String) : Prop :=
  ∃ d, ((⟨'?', b⟩ : Key), LVal.dict d) ∈ lhs ∧ ("state", "error") ∈ d

/-- The rule asks the buffer whether its state is error, and nothing else. -/
def QueriesOnlyError (lhs : List (Key × LVal)) (b : String) : Prop :=
  ((⟨'?', b⟩ : Key), LVal.dict [("state", "error")]) ∈ lhs

/-- The buffer belongs to one of the classes. -/
def OfClass (bufs : List (String × CBuf)) (b : String) (l : List BufClass) : Prop := ∃ f, alook b bufs = some f ∧ f.cls ∈ l

/-- The first rule requests something of `b` in a way that the second one cannot be merged with; `err` says which queries of a
retrieval count. -/
def UnsafeAt (err : List (Key × LVal) → String → Prop) (bufs : List (String × CBuf)) (rhs1 : List (Key × RVal))
    (lhs2 : List (Key × LVal)) (rhs2 : List (Key × RVal)) (b : String) : Prop :=
  RequestsBuf rhs1 b ∧
    ((RequestsBuf rhs2 b ∧ ¬ OfClass bufs b [.decmem]) ∨
     (QueriesOther lhs2 b ∧ OfClass bufs b [.motor, .visual, .visualLocation]) ∨
     (TestsBuf lhs2 b ∧ OfClass bufs b [.visual, .visualLocation]) ∨
     (err lhs2 b ∧ OfClass bufs b [.decmem]))

/-- A left-hand side as rules have them: what is queried is a dictionary with at least one query. -/
def QueriesAreDicts (lhs : List (Key × LVal)) : Prop :=
  ∀ b v, ((⟨'?', b⟩ : Key), v) ∈ lhs → ∃ q d, v = .dict (q :: d) ∧ ((q :: d).map Prod.fst).Nodup

/-- A retrieved chunk is still in the buffer. -/
def StillRetrieved (sv : SlotVals) (bufs : List (String × CBuf)) : Prop :=
  ∃ b d c f, (b, SlotInfo.retr d c) ∈ sv ∧ alook b bufs = some f ∧ f.full = true

/-! ## Variables -/

/-- `v` is a variable of the slot, plain or negated. -/
def SlotVar (s : Slot) (v : String) : Prop := ∃ x, s = .vv x ∧ ((x.vars = some v ∧ v ≠ "") ∨ v ∈ x.negvars)

/-- `v` is a variable of a chunk under one of the signs that come with a chunk. -/
def LhsVar (lhs : List (Key × LVal)) (v : String) : Prop :=
  ∃ k c n s, (k, LVal.chunk c) ∈ lhs ∧ k.code ∈ ['=', '+', '@', '*'] ∧ (n, s) ∈ c.slots ∧ SlotVar s v

/-- The same for right-hand sides. -/
def RhsVar (rhs : List (Key × RVal)) (v : String) : Prop :=
  ∃ k c n s, (k, RVal.chunk c) ∈ rhs ∧ k.code ∈ ['=', '+', '@', '*'] ∧ (n, s) ∈ c.slots ∧ SlotVar s v

/-- The slot `y` is the slot `s` with its variables renamed by `ρ` and nothing else changed. -/
structure SlotRenamed (ρ : String → String) (s : Slot) (y : VarVal) : Prop where
  empty : s = .empty → y = ⟨.none, Option.none, [], []⟩
  values : ∀ x, s = .vv x → y.values = x.values ∧ y.negvalues = x.negvalues
  pos : ∀ x v, s = .vv x → x.vars = some v → v ≠ "" → y.vars = some (ρ v)
  nopos : ∀ x, s = .vv x → (x.vars = Option.none ∨ x.vars = some "") → y.vars = Option.none
  neg : ∀ x w, s = .vv x → (w ∈ y.negvars ↔ ∃ v ∈ x.negvars, w = ρ v)

/-- The chunk `c'` is the chunk `c` with its variables renamed; the slots that its type has beyond those of `c` are empty. -/
structure ChunkRenamed (ρ : String → String) (c c' : Chunk) : Prop where
  typ : c'.typ = c.typ
  slots : ∀ n s, (n, s) ∈ c.slots → ∃ y, alook n c'.slots = some (.vv y) ∧ SlotRenamed ρ s y
  rest : ∀ n, n ∉ c.slots.map Prod.fst → alook n c'.slots = Option.none ∨ alook n c'.slots = some .empty

/-- The chunk is of a known type that has its slots. -/
def KnownChunk (reg : Reg) (c : Chunk) : Prop :=
  (c.slots.map Prod.fst).Nodup ∧ ∃ fs, alook c.typ reg = some fs ∧ ∀ n ∈ c.slots.map Prod.fst, n ∈ fs

/-- A rule as rules are written: chunks of known types where chunks belong. -/
structure GoodRule (reg : Reg) (lhs : List (Key × LVal)) (rhs : List (Key × RVal)) : Prop where
  lhs : ∀ k v, (k, v) ∈ lhs → k.code ∈ ['=', '+', '@', '*'] → ∃ c, v = .chunk c ∧ KnownChunk reg c
  rhs : ∀ k v, (k, v) ∈ rhs → k.code ∈ ['=', '+', '@', '*'] → ∃ c, v = .chunk c ∧ KnownChunk reg c

/-! ## Equality of rules -/

/-- Two dictionaries have equal values for the same keys. -/
def SameDict {α : Type} (same : α → α → Prop) (a b : List (Key × α)) : Prop :=
  ∀ k, (klook k a = Option.none ∧ klook k b = Option.none) ∨ ∃ v w, klook k a = some v ∧ klook k b = some w ∧ same v w

/-- Conditions that are equal: chunks by Python's `==`, queries if they ask the same. -/
inductive SameL (H : PyHash) : LVal → LVal → Prop
  | chunk {a b : Chunk} : a.eq H BV.init b = true → SameL H (.chunk a) (.chunk b)
  | dict {a b : List (String × String)} : (∀ n, alook n a = alook n b) → SameL H (.dict a) (.dict b)

/-- Actions that are equal. -/
inductive SameR (H : PyHash) : RVal → RVal → Prop
  | chunk {a b : Chunk} : a.eq H BV.init b = true → SameR H (.chunk a) (.chunk b)
  | tests {a b : List (String × String)} : (∀ n, alook n a = alook n b) → SameR H (.tests a) (.tests b)
  | cmds {a : List (String × String)} : SameR H (.cmds a) (.cmds a)
  | nothing : SameR H .nothing .nothing

/-- Two rules yield equal dictionaries. -/
def SameRule (H : PyHash) (a b : Body) : Prop :=
  ∃ la lb ra rb, a.lhs = .ok la ∧ b.lhs = .ok lb ∧ a.rhs = .ok ra ∧ b.rhs = .ok rb ∧
    SameDict (SameL H) la lb ∧ SameDict (SameR H) ra rb

/-- What rules yield are dictionaries: keys are distinct, also in the dictionaries of queries and tests. -/
structure DictBody (b : Body) : Prop where
  lhs : ∀ l, b.lhs = .ok l → (l.map Prod.fst).Nodup ∧ ∀ k d, (k, LVal.dict d) ∈ l → (d.map Prod.fst).Nodup
  rhs : ∀ l, b.rhs = .ok l → (l.map Prod.fst).Nodup ∧ ∀ k d, (k, RVal.tests d) ∈ l → (d.map Prod.fst).Nodup

/-- The rules afterwards differ from the rules before in that `name` is new and has the body `new`. -/
def AddedRule (rules rules' : CRules) (name : String) (new : Body) : Prop :=
  alook name rules = Option.none ∧ (∃ r, alook name rules' = some r ∧ r.body = new) ∧ ∀ n, n ≠ name → alook n rules' = alook n rules

/-- The rules afterwards differ from the rules before at most in the utility of `name`, a rule equal to `new`. -/
def KeptRule (H : PyHash) (rules rules' : CRules) (name : String) (new : Body) : Prop :=
  (∃ r r', alook name rules = some r ∧ alook name rules' = some r' ∧ r'.body = r.body ∧ r'.reward = r.reward ∧
    SameRule H r.body new) ∧ (∀ n, n ≠ name → alook n rules' = alook n rules) ∧ rules'.map Prod.fst = rules.map Prod.fst

/-- Every rule of `rules` is still there, with the same body; there may be more rules, and utilities may have changed. -/
def StillThere (rules rules' : CRules) : Prop :=
  ∀ n r, alook n rules = some r → ∃ r', alook n rules' = some r' ∧ r'.body = r.body

end Verif.Spec
