import Verif.Spec.Buffer
import Verif.Spec.Assoc
import Verif.Spec.Subsymbolic
import Verif.Model.Retrieve
/-! # Specification of retrieval -/
namespace Verif.Spec
open Verif Classical

/-- What a description with bindings asks of a chunk: each mentioned slot has every demanded value and no rejected one. -/
def Asked (bv : BV) (other d : Chunk) : Prop :=
  ∀ n x w, MentionsSlot other n x → SlotHas d n w →
    (∀ v, Demands bv x v → SameVal v w) ∧ (∀ v, Rejects bv x v → ¬ Forbids v w)

/-- A request within the reach of C13: plain, ordinary, legal, and not asking for the empty value of a variable. -/
def GoodRequest (bv : BV) (other : Chunk) : Prop :=
  ∀ n x, MentionsSlot other n x → PlainRequest bv x ∧ Ordinary bv x ∧ ¬ Illegal bv false x ∧ ∀ v, Demands bv x v → v ≠ .empty

/-- `r` is the description `other` with its variables resolved. -/
structure RequestOf (bv : BV) (ni : Bool) (other r : Chunk) : Prop where
  typ : r.typ = other.typ
  named : Named r
  mentioned : ∀ n x, MentionsSlot other n x → ∃ y, (n, SlotOf.vv y) ∈ r.slots ∧
    (PlainRequest bv x → Ordinary bv x → ¬ Illegal bv ni x ∧ Resolves bv x y)
  others : ∀ n s, (n, s) ∈ r.slots → (∃ x, MentionsSlot other n x) ∨ s = .empty
  novars : ∀ n x, (n, SlotOf.vv x) ∈ r.slots → x.vars = Option.none ∧ x.negvars = []

/-- Explicitly requested emptiness only for slots the chunk has (see C02). -/
def EmptyCovered (bv : BV) (other d : Chunk) : Prop :=
  ∀ n x, MentionsSlot other n x → Demands bv x (.str "None") → ∃ s, (n, s) ∈ d.slots

/-- The chunk is among the recently retrieved ones. -/
def Recent (recent : List (Option Chunk)) (c : Chunk) : Prop := ∃ d, some d ∈ recent ∧ chunkContent d = chunkContent c

/-- The chunk passes the test of recency; without finsts there is none. -/
def PassesRecency (finst : ℕ) (recent : List (Option Chunk)) (want : Option Bool) (c : Chunk) : Prop :=
  finst ≠ 0 → (want = some false → ¬ Recent recent c) ∧ (want = some true → Recent recent c)

/-- The oldest trace is not of the current instant. -/
def StoredBefore (now : ℚ) (l : List ℚ) : Prop := ∃ t r, l = t :: r ∧ t ≠ now

/-- How well a chunk fits a request: 0 if it matches; with partial matching its score. -/
inductive Fits (H : PyHash) (p : RParams) (req c : Chunk) : ℝ → Prop
  | exact : p.partialMatching = false → (req.le H BV.init c).1 = true → Fits H p req c 0
  | partly {st : MState} : p.partialMatching = true → req.matchC H ⟨true, p.penalty, p.sims⟩ BV.init c = .ok st →
      Fits H p req c st.sim

/-- The chunk at position `k` of memory is a candidate with activation `a`: base level, spreading activation, fit, noise.
Chunks without a base level are no candidates. -/
def HasActivation (H : PyHash) (p : RParams) (req : Chunk) (now : ℚ) (finst : ℕ) (recent : List (Option Chunk)) (want : Option Bool)
    (bufs : List (String × Option Chunk)) (draws : ℕ → ℝ) (m : DecMem) (k : ℕ) (c : Chunk) (a : ℝ) : Prop :=
  ∃ l pm b, m.data[k]? = some (c, l) ∧ PassesRecency finst recent want c ∧ Fits H p req c pm ∧
    baselevel now l p.bll p.decay ((cdLook H c m.act).map (fun q : ℚ => (q : ℝ))) p.optimized = .ok b ∧
    a = b + (p.weights.map (fun q => contribution m p.S p.restricted p.only c q.2 ((alook q.1 bufs).getD Option.none))).sum
      + pm + (if p.noise = 0 then 0 else draws k)

/-- Buffers that can spread activation: plain content, no slot without a name; every weighted buffer exists. -/
structure GoodSources (p : RParams) (bufs : List (String × Option Chunk)) : Prop where
  plain : ∀ b k, alook b bufs = some (some k) → Plain k ∧ ∀ n s, (n, s) ∈ k.slots → n ≠ ""
  known : ∀ q ∈ p.weights, ∃ o, alook q.1 bufs = some o

/-- Histories of a buffer: retrievals with their results; anything may happen in between that leaves `finst` and `recent`
alone. -/
inductive RHist (P : Py) (n : ℕ) : RBuf → List (Option Chunk) → Prop
  | new {st : RBuf} : st.finst = n → st.recent = [] → RHist P n st []
  | other {st st' : RBuf} {rs : List (Option Chunk)} : RHist P n st rs → st'.finst = st.finst → st'.recent = st.recent → RHist P n st' rs
  | ok {st st' : RBuf} {rs : List (Option Chunk)} {p : RParams} {now : ℚ} {o : Chunk} {bv : BV} {bufs : List (String × Option Chunk)}
      {want : Option Bool} {draws : ℕ → ℝ} {res : Option Chunk} {t : ℝ} :
      RHist P n st rs → st.retrieve P p now o bv bufs want draws = (st', .ok (res, t)) → RHist P n st' (rs ++ [res])
  | fails {st st' : RBuf} {rs : List (Option Chunk)} {p : RParams} {now : ℚ} {o : Chunk} {bv : BV} {bufs : List (String × Option Chunk)}
      {want : Option Bool} {draws : ℕ → ℝ} {e : PyErr} :
      RHist P n st rs → st.retrieve P p now o bv bufs want draws = (st', .error e) → RHist P n st' rs

end Verif.Spec
