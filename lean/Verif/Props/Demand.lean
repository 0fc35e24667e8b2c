import Verif.Lemmas.Demand
import Verif.Props.Compile
import Verif.Props.Rules
/-! # Properties C65 and C66: what compiled rules demand -/
namespace Verif.Props
open Verif Verif.Spec

/-- Two rules as they are written, the knowledge that compilation uses, and buffers with data in them: what rules yield are
dictionaries, with chunks of known types where chunks belong and queries that ask something, values are data, and names of tested
buffers are not variables. -/
structure RegularPair (P : Py) (reg : Reg) (l1 : List (Key × LVal)) (r1 : List (Key × RVal)) (l2 : List (Key × LVal))
    (r2 : List (Key × RVal)) (sv : SlotVals) (D : Val → Prop) (faces : Faces) : Prop where
  cf : P.H.CollisionFree
  types : RegOk P.toPyEnv reg
  dict1 : DictBody ⟨.ok l1, .ok r1⟩
  dict2 : DictBody ⟨.ok l2, .ok r2⟩
  good1 : GoodRule reg l1 r1
  good2 : GoodRule reg l2 r2
  queries1 : QueriesAreDicts l1
  queries2 : QueriesAreDicts l2
  names1 : PlainNames l1
  names2 : PlainNames l2
  data : DataMentioned (l1 ++ l2) sv
  patterns1 : GoodPatterns l1
  patterns2 : GoodPatterns l2
  domain : Domain D
  buffers1 : GoodBuffers D faces l1
  buffers2 : GoodBuffers D faces l2

/-! ## C65 -/

/-- The whole of C65: whenever the conditions of a compiled rule hold, so do those of the first rule that it is made of. -/
def C65_full : Prop := ∀ (P : Py) (reg : Reg) (name2 : String) (l1 l2 lhs : List (Key × LVal)) (r1 r2 rhs : List (Key × RVal))
  (sv : SlotVals) (bufs : List (String × CBuf)) (D : Val → Prop) (faces : Faces) (σ : String → Option Val),
  RegularPair P reg l1 r1 l2 r2 sv D faces →
  newRule P reg name2 ⟨.ok l1, .ok r1⟩ ⟨.ok l2, .ok r2⟩ sv bufs = .ok (some ⟨.ok lhs, .ok rhs⟩) →
  RuleHolds D faces lhs σ → ∃ τ, RuleHolds D faces l1 τ

/-- C65 (partial): whenever the conditions of a compiled rule hold, so do those of the first rule. Missing: rules that ask different
things of a buffer (`C65_refuted`), and rules that test a buffer for different types (`C65_types_refuted`). -/
theorem C65_partial (P : Py) (reg : Reg) (name2 : String) (l1 l2 lhs : List (Key × LVal)) (r1 r2 rhs : List (Key × RVal))
    (sv : SlotVals) (bufs : List (String × CBuf)) (D : Val → Prop) (faces : Faces) (σ : String → Option Val)
    (h : RegularPair P reg l1 r1 l2 r2 sv D faces) (hA : AskAlike l1 r1 l2) (hT : TestAlike reg l1 l2)
    (hn : newRule P reg name2 ⟨.ok l1, .ok r1⟩ ⟨.ok l2, .ok r2⟩ sv bufs = .ok (some ⟨.ok lhs, .ok rhs⟩))
    (hσ : RuleHolds D faces lhs σ) :
    ∃ τ, RuleHolds D faces l1 τ ∧ ∀ b, Tested l1 b → τ b = σ b := by
  obtain ⟨C⟩ := newRule_compiling hn
  refine ⟨firstAssign D C.st l1 σ, C.demand h.cf h.types h.dict1 h.dict2 h.good1 h.good2 h.queries1 hA hT h.names1 h.data h.patterns1
    h.buffers1 hσ, fun b hb => ?_⟩
  simp only [firstAssign, if_pos hb]

/-- The same for the rule set after compilation: wherever the new rule matches, the first rule matches. -/
theorem C65_rules_partial (P : Py) (reg : Reg) (p : UParams) (rules : CRules) (n1 n2 name : String) (x1 x2 new : CRule)
    (l1 l2 lhs : List (Key × LVal)) (r1 r2 rhs : List (Key × RVal)) (sv : SlotVals) (bufs : List (String × CBuf)) (D : Val → Prop)
    (faces : Faces) (hd : DictRules rules) (h1 : alook n1 rules = some x1) (h2 : alook n2 rules = some x2)
    (e1 : x1.body = ⟨.ok l1, .ok r1⟩) (e2 : x2.body = ⟨.ok l2, .ok r2⟩)
    (hm : (compileRules P reg p rules n1 n2 sv bufs).2 = .ok (.made name false))
    (hnew : alook name (compileRules P reg p rules n1 n2 sv bufs).1 = some new) (enew : new.body = ⟨.ok lhs, .ok rhs⟩)
    (h : RegularPair P reg l1 r1 l2 r2 sv D faces) (hA : AskAlike l1 r1 l2) (hT : TestAlike reg l1 l2)
    (hS1 : SafeNames l1) (hB : GoodBuffers D faces lhs) (hP : GoodPatterns lhs) (hS : SafeNames lhs)
    (hs : Succeeds P.H faces lhs) : Succeeds P.H faces l1 := by
  have hn : newRule P reg n2 ⟨.ok l1, .ok r1⟩ ⟨.ok l2, .ok r2⟩ sv bufs = .ok (some ⟨.ok lhs, .ok rhs⟩) := by
    rcases C48_partial P reg p rules n1 n2 sv bufs hd with ⟨h, _⟩ | ⟨e, h, _⟩ | ⟨y1, y2, b, nm, g1, g2, hb, _, _, ⟨hm', ha, _⟩ | ⟨hm', _⟩⟩
    · rw [hm] at h; cases h
    · rw [hm] at h; cases h
    · rw [hm] at hm'
      cases hm'
      rw [h1] at g1; cases g1
      rw [h2] at g2; cases g2
      obtain ⟨_, ⟨r, hr, hrb⟩, _⟩ := ha
      rw [hnew] at hr; cases hr
      rw [e1, e2] at hb
      rw [hb, ← hrb, enew]
    · rw [hm] at hm'; cases hm'
  obtain ⟨σ, hσ⟩ := (C28_partial h.cf h.domain faces lhs hB hP hS).1.1 hs
  obtain ⟨τ, hτ, _⟩ := C65_partial P reg n2 l1 l2 lhs r1 r2 rhs sv bufs D faces σ h hA hT hn hσ
  exact (C28_partial h.cf h.domain faces l1 h.buffers1 h.patterns1 hS1).1.2 ⟨τ, hτ⟩

/-! ## C66 -/

/-- The whole of C66: whenever the conditions of a compiled rule hold, so do the conditions of the second rule on buffers that the
first rule does nothing to. -/
def C66_full : Prop := ∀ (P : Py) (reg : Reg) (name2 : String) (l1 l2 lhs : List (Key × LVal)) (r1 r2 rhs : List (Key × RVal))
  (sv : SlotVals) (bufs : List (String × CBuf)) (D : Val → Prop) (faces : Faces) (σ : String → Option Val) (l : List (Key × LVal)),
  RegularPair P reg l1 r1 l2 r2 sv D faces →
  newRule P reg name2 ⟨.ok l1, .ok r1⟩ ⟨.ok l2, .ok r2⟩ sv bufs = .ok (some ⟨.ok lhs, .ok rhs⟩) →
  (∀ k v, (k, v) ∈ l → (k, v) ∈ l2 ∧ ∀ m a, (m, a) ∈ r1 → m.name ≠ k.name) →
  RuleHolds D faces lhs σ → ∃ τ, RuleHolds D faces l τ

/-- C66 (partial): whenever the conditions of a compiled rule hold, so do, under one assignment, the conditions of the second rule that
the first one has nothing to do with. Missing: slots that both rules test (`C66_refuted`). -/
theorem C66_partial (P : Py) (reg : Reg) (name2 : String) (l1 l2 lhs : List (Key × LVal)) (r1 r2 rhs : List (Key × RVal))
    (sv : SlotVals) (bufs : List (String × CBuf)) (D : Val → Prop) (faces : Faces) (σ : String → Option Val) (l : List (Key × LVal))
    (h : RegularPair P reg l1 r1 l2 r2 sv D faces)
    (hn : newRule P reg name2 ⟨.ok l1, .ok r1⟩ ⟨.ok l2, .ok r2⟩ sv bufs = .ok (some ⟨.ok lhs, .ok rhs⟩))
    (hl : LeftAlone l1 r1 sv l2 l) (hσ : RuleHolds D faces lhs σ) :
    ∃ τ, RuleHolds D faces l τ ∧ ∀ b, Tested l2 b → τ b = σ b := by
  obtain ⟨C⟩ := newRule_compiling hn
  have hD2 : DataMentioned l2 sv := by
    intro v hv
    apply h.data
    cases hv with
    | test h1 h2 => exact .test (List.mem_append_right _ h1) h2
    | known h1 h2 => exact .known h1 h2
    | retrieved h1 h2 => exact .retrieved h1 h2
  refine ⟨secondAssign D name2 C.st l2 σ, C.demand2 h.cf h.types h.dict1 h.dict2 h.good1 h.good2 h.queries2 h.names2 hD2 h.patterns2
    h.buffers2 hl hσ, fun b hb => ?_⟩
  simp only [secondAssign, if_pos hb]

/-! ## Examples and refutations -/

/-- Chunks of the examples: slots have a value or a variable. -/
def ExChunk (reg : Reg) (c : Chunk) : Prop :=
  KnownChunk reg c ∧ ∀ n s, (n, s) ∈ c.slots → (∃ t, t ≠ "None" ∧ s = .vv (exLit t)) ∨ ∃ v, s = .vv (exVar v)

/-- The chunks of the rules of the examples. -/
def ExLhs (reg : Reg) (l : List (Key × LVal)) : Prop :=
  ∀ k v, (k, v) ∈ l → (k.code = '=' ∧ ∃ c, v = .chunk c ∧ ExChunk reg c) ∨ (k.code = '?' ∧ ∃ q d, v = .dict (q :: d) ∧ ((q :: d).map Prod.fst).Nodup)

/-- Data of the examples: slots have values. -/
def ExData (d : Chunk) : Prop := Named d ∧ ∀ n s, (n, s) ∈ d.slots → ∃ t, s = .vv (exLit t)

theorem exData_data {d : Chunk} (h : ExData d) : DataChunk d := by
  refine ⟨?_, h.1, fun n x hx => ?_⟩
  · have : ∀ l : Slots, (∀ n s, (n, s) ∈ l → ∃ t, s = .vv (exLit t)) → PlainSlots l := by
      intro l
      induction l with
      | nil => intro _; trivial
      | cons x r ih =>
        obtain ⟨n, s⟩ := x
        intro hl
        obtain ⟨t, rfl⟩ := hl n s List.mem_cons_self
        exact ⟨by simp [PlainSlot, PlainVal, exLit], ih (fun n s hs => hl n s (List.mem_cons_of_mem _ hs))⟩
    exact this _ h.2
  · obtain ⟨t, e⟩ := h.2 n _ hx
    cases e
    simp [exLit]

theorem exLhs_patterns {reg : Reg} {l : List (Key × LVal)} (h : ExLhs reg l) : GoodPatterns l := by
  intro n p hm
  rcases h _ _ hm with ⟨_, c, e, hc⟩ | ⟨hk, _⟩
  · cases e
    refine ⟨hc.1.1, fun n x hx => ?_⟩
    rcases hc.2 n _ hx with ⟨t, _, e⟩ | ⟨v, e⟩ <;> cases e <;> simp [exLit, exVar, PlainVal]
  · simp at hk

theorem exLhs_buffers {reg : Reg} {l : List (Key × LVal)} (h : ExLhs reg l) {faces : Faces}
    (hf : ∀ n p b d r, ((⟨'=', n⟩ : Key), LVal.chunk p) ∈ l → alook n faces = some b → b.data = d :: r → ExData d ∧ Covers d p) :
    GoodBuffers DataVal faces l := by
  refine ⟨fun n p b d r hm hb hd => ?_⟩
  obtain ⟨h1, h2⟩ := hf n p b d r hm hb hd
  have hdata := exData_data h1
  refine ⟨hdata.plain, hdata.named, dataChunk_inDomain hdata h2, ?_, ⟨?_, by simp [Chunk.val]⟩⟩
  · intro n x w hx hv
    rcases h _ _ hm with ⟨_, c, e, hc⟩ | ⟨hk, _⟩
    · cases e
      rcases hc.2 n _ hx with ⟨t, ht, e⟩ | ⟨v, e⟩ <;> cases e
      · simp [exLit, ht] at hv
      · simp [exVar] at hv
    · simp at hk
  · exact hdata.plain

theorem exLhs_names {reg : Reg} {l : List (Key × LVal)} (h : ExLhs reg l)
    (hv : ∀ n c m v, ((⟨'=', n⟩ : Key), LVal.chunk c) ∈ l → (m, SlotOf.vv (exVar v)) ∈ c.slots → ¬ Tested l v) : PlainNames l := by
  refine fun n hn => ⟨?_, ?_⟩
  · rintro ⟨b, c, m, x, hm, hx, e⟩
    rcases h _ _ hm with ⟨_, c', e', hc⟩ | ⟨hk, _⟩
    · cases e'
      rcases hc.2 m _ hx with ⟨t, ht, e''⟩ | ⟨v, e''⟩ <;> cases e''
      · cases e
      · cases e; exact hv b c m _ hm hx hn
    · simp at hk
  · rintro ⟨b, c, m, x, hm, hx, e⟩
    rcases h _ _ hm with ⟨_, c', e', hc⟩ | ⟨hk, _⟩
    · cases e'
      rcases hc.2 m _ hx with ⟨t, ht, e''⟩ | ⟨v, e''⟩ <;> cases e'' <;> simp [exLit, exVar] at e
    · simp at hk

/-- Rules of the examples are regular. -/
theorem exRegular {P : Py} (cf : P.H.CollisionFree) {reg : Reg} (hr : RegOk P.toPyEnv reg) {l1 l2 : List (Key × LVal)}
    {r1 r2 : List (Key × RVal)} {sv : SlotVals} {faces : Faces} (h1 : ExLhs reg l1) (h2 : ExLhs reg l2)
    (n1 : (l1.map Prod.fst).Nodup) (n2 : (l2.map Prod.fst).Nodup) (m1 : (r1.map Prod.fst).Nodup) (m2 : (r2.map Prod.fst).Nodup)
    (hr1 : ∀ k v, (k, v) ∈ r1 → (∃ c, v = .chunk c ∧ KnownChunk reg c) ∨ (k.code = '~' ∧ v = .nothing))
    (hr2 : ∀ k v, (k, v) ∈ r2 → (∃ c, v = .chunk c ∧ KnownChunk reg c) ∨ (k.code = '~' ∧ v = .nothing))
    (hv1 : ∀ n c m v, ((⟨'=', n⟩ : Key), LVal.chunk c) ∈ l1 → (m, SlotOf.vv (exVar v)) ∈ c.slots → ¬ Tested l1 v)
    (hv2 : ∀ n c m v, ((⟨'=', n⟩ : Key), LVal.chunk c) ∈ l2 → (m, SlotOf.vv (exVar v)) ∈ c.slots → ¬ Tested l2 v)
    (hsv : ∀ b i, (b, i) ∈ sv → i = .nothing ∨ ∃ d, i = .dict d ∧ ∀ n s, (n, s) ∈ d → ∃ t, s = .vv (exLit t))
    (hf : ∀ n p b d r, ((⟨'=', n⟩ : Key), LVal.chunk p) ∈ l1 ++ l2 → alook n faces = some b → b.data = d :: r → ExData d ∧ Covers d p) :
    RegularPair P reg l1 r1 l2 r2 sv DataVal faces := by
  have dict : ∀ {l : List (Key × LVal)} {r : List (Key × RVal)}, ExLhs reg l → (l.map Prod.fst).Nodup → (r.map Prod.fst).Nodup →
      (∀ k v, (k, v) ∈ r → (∃ c, v = .chunk c ∧ KnownChunk reg c) ∨ (k.code = '~' ∧ v = .nothing)) → DictBody ⟨.ok l, .ok r⟩ := by
    intro l r hl hn hm hr
    refine dictBody_of ⟨hn, fun k d hk => ?_⟩ ⟨hm, fun k d hk => ?_⟩
    · rcases hl _ _ hk with ⟨_, c, e, _⟩ | ⟨_, q, d', e, hd⟩
      · cases e
      · cases e; exact hd
    · rcases hr _ _ hk with ⟨c, e, _⟩ | ⟨_, e⟩ <;> cases e
  have good : ∀ {l : List (Key × LVal)} {r : List (Key × RVal)}, ExLhs reg l →
      (∀ k v, (k, v) ∈ r → (∃ c, v = .chunk c ∧ KnownChunk reg c) ∨ (k.code = '~' ∧ v = .nothing)) → GoodRule reg l r := by
    intro l r hl hr
    refine ⟨fun k v hm hk => ?_, fun k v hm hk => ?_⟩
    · rcases hl _ _ hm with ⟨_, c, e, hc⟩ | ⟨hq, _⟩
      · exact ⟨c, e, hc.1⟩
      · rw [hq] at hk; simp at hk
    · rcases hr _ _ hm with h | ⟨hq, _⟩
      · exact h
      · rw [hq] at hk; simp at hk
  have queries : ∀ {l : List (Key × LVal)}, ExLhs reg l → QueriesAreDicts l := by
    intro l hl b v hm
    rcases hl _ _ hm with ⟨hk, _⟩ | ⟨_, h⟩
    · simp at hk
    · exact h
  refine ⟨cf, hr, dict h1 n1 m1 hr1, dict h2 n2 m2 hr2, good h1 hr1, good h2 hr2, queries h1, queries h2, exLhs_names h1 hv1,
    exLhs_names h2 hv2, ?_, exLhs_patterns h1, exLhs_patterns h2, dataDomain, exLhs_buffers h1 (fun n p b d r hm => hf n p b d r (List.mem_append_left _ hm)),
    exLhs_buffers h2 (fun n p b d r hm => hf n p b d r (List.mem_append_right _ hm))⟩
  intro v hv
  cases hv with
  | test hm hx =>
    have : ∃ l, ExLhs reg l ∧ _ ∈ l := (List.mem_append.1 hm).elim (fun h => ⟨l1, h1, h⟩) (fun h => ⟨l2, h2, h⟩)
    obtain ⟨l, hl, hm⟩ := this
    rcases hl _ _ hm with ⟨_, c, e, hc⟩ | ⟨_, q, d', e, hd⟩
    · cases e
      rcases hc.2 _ _ hx with ⟨t, _, e⟩ | ⟨v, e⟩ <;> cases e <;> simp [exLit, exVar, PlainVal]
    · cases e
  | known hm hx =>
    rcases hsv _ _ hm with e | ⟨d, e, hd⟩ <;> cases e
    obtain ⟨t, e⟩ := hd _ _ hx
    cases e
    simp [exLit, PlainVal]
  | retrieved hm hx =>
    rcases hsv _ _ hm with e | ⟨d, e, hd⟩ <;> cases e

theorem exCompReg_ok (H : PyHash) : RegOk (exPy H).toPyEnv exCompReg := by
  intro t fs h
  simp only [exCompReg, alook] at h
  split at h
  · cases h
    rename_i ht
    subst ht
    exact ⟨by simp [FieldsSorted], by simp [exPy], by simp [exPy]⟩
  · cases h

theorem exGoal_known (x : VarVal) : KnownChunk exCompReg (exGoal x) := ⟨by simp [exGoal], ["state"], rfl, by simp [exGoal]⟩

theorem exGoal_lit {t : String} (h : t ≠ "None") : ExChunk exCompReg (exGoal (exLit t)) :=
  ⟨exGoal_known _, fun n s hs => by simp [exGoal] at hs; exact Or.inl ⟨t, h, hs.2⟩⟩

theorem exGoal_var (v : String) : ExChunk exCompReg (exGoal (exVar v)) :=
  ⟨exGoal_known _, fun n s hs => by simp [exGoal] at hs; exact Or.inr ⟨v, hs.2⟩⟩

theorem exGoal_data (t : String) : ExData (exGoal (exLit t)) :=
  ⟨by simp [Named, exGoal], fun n s hs => by simp [exGoal] at hs; exact ⟨t, hs.2⟩⟩

/-- A rule that changes the goal while the hand is in the given state. -/
def exWhile (q : String) (a : VarVal) : List (Key × LVal) := [(⟨'=', "g"⟩, .chunk (exGoal a)), (⟨'?', "manual"⟩, .dict [("state", q)])]

/-- Setting the goal. -/
def exSet (s : String) : List (Key × RVal) := [(⟨'=', "g"⟩, .chunk (exGoal (exLit s)))]

/-- The buffers: the goal is in the given state, and the hand is free. -/
def exHandFaces (s : String) : Faces := [("g", ⟨[exGoal (exLit s)], []⟩), ("manual", ⟨[], [("state", "free")]⟩)]

theorem exWhile_lhs {q : String} {a : VarVal} (h : ExChunk exCompReg (exGoal a)) : ExLhs exCompReg (exWhile q a) := by
  intro k v hm
  simp only [exWhile, List.mem_cons, Prod.mk.injEq, List.not_mem_nil, or_false] at hm
  rcases hm with ⟨rfl, rfl⟩ | ⟨rfl, rfl⟩
  · exact Or.inl ⟨rfl, _, rfl, h⟩
  · exact Or.inr ⟨rfl, _, _, rfl, by simp⟩

theorem exSet_good (s : String) : ∀ k v, (k, v) ∈ exSet s → (∃ c, v = .chunk c ∧ KnownChunk exCompReg c) ∨ (k.code = '~' ∧ v = .nothing) := by
  intro k v hm
  simp only [exSet, List.mem_cons, Prod.mk.injEq, List.not_mem_nil, or_false] at hm
  obtain ⟨rfl, rfl⟩ := hm
  exact Or.inl ⟨_, rfl, exGoal_known _⟩

theorem exSV_data : ∀ b i, (b, i) ∈ exSV → i = .nothing ∨ ∃ d, i = .dict d ∧ ∀ n s, (n, s) ∈ d → ∃ t, s = .vv (exLit t) := by
  intro b i hm
  simp only [exSV, List.mem_cons, Prod.mk.injEq, List.not_mem_nil, or_false] at hm
  rcases hm with ⟨rfl, rfl⟩ | ⟨rfl, rfl⟩
  · exact Or.inr ⟨_, rfl, fun n s hs => by simp at hs; exact ⟨"b", hs.2⟩⟩
  · exact Or.inl rfl

theorem exWhile_regular {H : PyHash} (cf : H.CollisionFree) (q1 q2 : String) {a : VarVal} (ha : ExChunk exCompReg (exGoal a))
    (hav : a.vars ≠ some "g") (s : String) :
    RegularPair (exPy H) exCompReg (exWhile q1 a) (exSet "b") (exWhile q2 (exVar "x")) (exSet "c") exSV DataVal (exHandFaces s) := by
  have names : ∀ (q : String) (a : VarVal), a.vars ≠ some "g" → ∀ n c m v, ((⟨'=', n⟩ : Key), LVal.chunk c) ∈ exWhile q a →
      (m, SlotOf.vv (exVar v)) ∈ c.slots → ¬ Tested (exWhile q a) v := by
    intro q a ha n c m v hm hx ht
    simp [exWhile] at hm
    obtain ⟨rfl, rfl⟩ := hm
    simp [exGoal] at hx
    obtain ⟨rfl, rfl⟩ := hx
    obtain ⟨p, hp⟩ := ht
    simp [exWhile] at hp
    exact ha (by simp [exVar, hp.1])
  refine exRegular cf (exCompReg_ok H) (exWhile_lhs ha) (exWhile_lhs (exGoal_var "x")) (by simp [exWhile]) (by simp [exWhile])
    (by simp [exSet]) (by simp [exSet]) (exSet_good _) (exSet_good _) (names q1 a hav) (names q2 _ (by simp [exVar])) exSV_data ?_
  intro n p b d r hm hb hd
  have hn : n = "g" ∧ ∃ x, p = exGoal x := by
    rcases List.mem_append.1 hm with h | h <;> simp [exWhile] at h <;> exact ⟨h.1, _, h.2⟩
  obtain ⟨rfl, x, rfl⟩ := hn
  simp [exHandFaces, alook] at hb
  subst hb
  simp at hd
  obtain ⟨rfl, _⟩ := hd
  refine ⟨exGoal_data s, fun n s' h => ?_⟩
  simp [exGoal] at h
  exact ⟨_, by simp [exGoal, h.1]; rfl⟩

/-- The conditions hold of these buffers if the literal is the state of the goal and the query asks whether the hand is free. -/
theorem exWhile_holds (s : String) : RuleHolds DataVal (exHandFaces s) (exWhile "free" (exLit s))
    (fun y => if y = "g" then some (exGoal (exLit s)).val else Option.none) := by
  have hdata := exData_data (exGoal_data s)
  refine ⟨fun y v hv => ?_, fun c hc => ?_⟩
  · split at hv
    · cases hv; exact ⟨hdata.plain, by simp [Chunk.val]⟩
    · cases hv
  · simp only [exWhile, List.mem_cons, List.not_mem_nil, or_false] at hc
    rcases hc with rfl | rfl
    · refine .test (b := ⟨_, _⟩) (d := exGoal (exLit s)) (r := []) rfl rfl (condHolds_iff.2 fun n s' w hs hw => ?_) ⟨_, rfl, ?_⟩
      · simp [exGoal] at hs
        obtain ⟨rfl, rfl⟩ := hs
        rw [(slotHas_iff hdata.named "state" w).1 hw]
        simp [SlotTrue, exLit, exGoal, matchingVal, alook, Accepts, SameVal]
      · simp [SameVal, Chunk.val]
    · refine .query (fun a v h => ?_)
      simp at h
      obtain ⟨rfl, rfl⟩ := h
      exact ⟨_, rfl, by simp [QueryHolds, alook]⟩

/-- The rule compiled from two rules that ask for different states of the hand asks what the second one asks. -/
theorem exWhile_compiled (H : PyHash) : newRule (exPy H) exCompReg "r2" ⟨.ok (exWhile "busy" (exLit "a")), .ok (exSet "b")⟩
    ⟨.ok (exWhile "free" (exVar "x")), .ok (exSet "c")⟩ exSV exCBufs =
    .ok (some ⟨.ok (exWhile "free" (exLit "a")), .ok (exSet "c")⟩) := rfl

/-- C65 is false: the first rule fires while the hand is busy and the second one while it is free, and the compiled rule fires
while it is free. -/
theorem C65_refuted : ¬ C65_full := by
  intro h
  obtain ⟨H, cf⟩ := exists_collisionFree
  obtain ⟨τ, hτ⟩ := h (exPy H) exCompReg "r2" _ _ _ _ _ _ exSV exCBufs DataVal (exHandFaces "a") _
    (exWhile_regular cf "busy" "free" (exGoal_lit (by decide)) (by simp [exLit]) "a") (exWhile_compiled H) (exWhile_holds "a")
  have := hτ.conds (⟨'?', "manual"⟩, .dict [("state", "busy")]) (by simp [exWhile])
  cases this with
  | query hall =>
    obtain ⟨f, hf, hq⟩ := hall "state" "busy" (by simp)
    simp [exHandFaces, alook] at hf
    subst hf
    simp [QueryHolds, alook] at hq

/-- The hypotheses of C65 are met by rules that ask for the same state of the hand. -/
example {H : PyHash} (cf : H.CollisionFree) :
    RegularPair (exPy H) exCompReg (exWhile "free" (exLit "a")) (exSet "b") (exWhile "free" (exVar "x")) (exSet "c") exSV DataVal
      (exHandFaces "a") ∧ AskAlike (exWhile "free" (exLit "a")) (exSet "b") (exWhile "free" (exVar "x")) ∧
    TestAlike exCompReg (exWhile "free" (exLit "a")) (exWhile "free" (exVar "x")) ∧
    newRule (exPy H) exCompReg "r2" ⟨.ok (exWhile "free" (exLit "a")), .ok (exSet "b")⟩ ⟨.ok (exWhile "free" (exVar "x")), .ok (exSet "c")⟩
      exSV exCBufs = .ok (some ⟨.ok (exWhile "free" (exLit "a")), .ok (exSet "c")⟩) ∧
    ∃ σ, RuleHolds DataVal (exHandFaces "a") (exWhile "free" (exLit "a")) σ := by
  refine ⟨exWhile_regular cf _ _ (exGoal_lit (by decide)) (by simp [exLit]) "a", ?_, ?_, rfl, _, exWhile_holds "a"⟩
  · intro b d1 d2 a v1 v2 h1 h2 m1 m2
    simp [exWhile] at h1 h2
    rw [h1.2] at m1
    rw [h2.2] at m2
    simp at m1 m2
    exact Or.inl (m1.2.trans m2.2.symm)
  · intro b c1 c2 h1 h2
    simp [exWhile] at h1 h2
    rw [h1.2, h2.2]
    exact ⟨["state"], rfl, by simp [exGoal]⟩

/-- Rules without variables have safe names. -/
theorem exWhile_safe (q t : String) (h : t ≠ "None") : SafeNames (exWhile q (exLit t)) := by
  have hx : ∀ n p m x, ((⟨'=', n⟩ : Key), LVal.chunk p) ∈ exWhile q (exLit t) → (m, SlotOf.vv x) ∈ p.slots → x = exLit t := by
    intro n p m x hm hx
    simp [exWhile] at hm
    rw [hm.2] at hx
    simp [exGoal] at hx
    exact hx.2
  refine ⟨fun n p m x hm h => ?_, ?_, ?_, fun n p m x hm h hv => ?_⟩
  · rw [hx n p m x hm h]; simp [exLit]
  · rintro n _ ⟨b, p, m, x, hm, h, hy⟩
    rw [hx b p m x hm h] at hy
    simp [exLit] at hy
  · rintro y ⟨b, p, m, x, hm, h, hy⟩
    rw [hx b p m x hm h] at hy
    simp [exLit] at hy
  · rw [hx n p m x hm h] at hv
    simp [exLit] at hv
    contradiction

/-- An instance of `C65_rules_partial`: the rule compiled from these two rules succeeds only if the first one does. -/
example {H : PyHash} (cf : H.CollisionFree) (hs : Succeeds H (exHandFaces "a") (exWhile "free" (exLit "a"))) :
    Succeeds H (exHandFaces "a") (exWhile "free" (exLit "a")) := by
  have hreg := exWhile_regular cf "free" "free" (exGoal_lit (t := "a") (by decide)) (by simp [exLit]) "a"
  refine C65_rules_partial (exPy H) exCompReg exCompParams
    (exTwo ⟨.ok (exWhile "free" (exLit "a")), .ok (exSet "b")⟩ ⟨.ok (exWhile "free" (exVar "x")), .ok (exSet "c")⟩) "r1" "r2" "r1 and r2"
    _ _ _ _ _ _ _ _ _ exSV exCBufs DataVal (exHandFaces "a") (exTwo_dict hreg.dict1 hreg.dict2) rfl rfl rfl rfl rfl rfl rfl hreg ?_ ?_
    (exWhile_safe _ _ (by decide)) hreg.buffers1 hreg.patterns1 (exWhile_safe _ _ (by decide)) hs
  · intro b d1 d2 a v1 v2 h1 h2 m1 m2
    simp [exWhile] at h1 h2
    rw [h1.2] at m1
    rw [h2.2] at m2
    simp at m1 m2
    exact Or.inl (m1.2.trans m2.2.symm)
  · intro b c1 c2 h1 h2
    simp [exWhile] at h1 h2
    rw [h1.2, h2.2]
    exact ⟨["state"], rfl, by simp [exGoal]⟩

/-- The registry with a type that has two slots. -/
def exPairReg : Reg := [("goal", ["state"]), ("pair", ["state", "x"])]

/-- A chunk with two slots. -/
def exPair (a b : String) : Chunk := ⟨"pair", [("state", .vv (exLit a)), ("x", .vv (exLit b))]⟩

/-- C65 for rules that do not ask different things of a buffer. -/
def C65_types_full : Prop := ∀ (P : Py) (reg : Reg) (name2 : String) (l1 l2 lhs : List (Key × LVal)) (r1 r2 rhs : List (Key × RVal))
  (sv : SlotVals) (bufs : List (String × CBuf)) (D : Val → Prop) (faces : Faces) (σ : String → Option Val),
  RegularPair P reg l1 r1 l2 r2 sv D faces → AskAlike l1 r1 l2 →
  newRule P reg name2 ⟨.ok l1, .ok r1⟩ ⟨.ok l2, .ok r2⟩ sv bufs = .ok (some ⟨.ok lhs, .ok rhs⟩) →
  RuleHolds D faces lhs σ → ∃ τ, RuleHolds D faces l1 τ

theorem exPairReg_ok (H : PyHash) : RegOk (exPy H).toPyEnv exPairReg := by
  intro t fs h
  simp only [exPairReg, alook] at h
  split at h
  · cases h
    rename_i ht
    subst ht
    exact ⟨by simp [FieldsSorted], by simp [exPy], by simp [exPy]⟩
  · split at h
    · cases h
      rename_i ht
      subst ht
      exact ⟨by simp [FieldsSorted], by simp [exPy], by simp [exPy]⟩
    · cases h

/-- C65 is false for rules that test a buffer for different types: the slot `x` that only the first rule tests, for a type that the
second rule does not name, is not tested by the compiled rule. -/
theorem C65_types_refuted : ¬ C65_types_full := by
  intro h
  obtain ⟨H, cf⟩ := exists_collisionFree
  have e : newRule (exPy H) exPairReg "r2" ⟨.ok [(⟨'=', "g"⟩, .chunk (exPair "a" "b"))], .ok (exSet "b")⟩
      ⟨.ok [(⟨'=', "g"⟩, .chunk (exGoal (exVar "y")))], .ok (exSet "c")⟩ exSV exCBufs =
      .ok (some ⟨.ok [(⟨'=', "g"⟩, .chunk ⟨"pair", [("state", .vv (exLit "a")), ("x", .empty)]⟩)], .ok (exSet "c")⟩) := rfl
  have hd : ExData (exPair "a" "c") :=
    ⟨by simp [Named, exPair], fun n s hs => by simp [exPair] at hs; rcases hs with ⟨_, rfl⟩ | ⟨_, rfl⟩ <;> exact ⟨_, rfl⟩⟩
  have hgoal : ∀ x, KnownChunk exPairReg (exGoal x) := fun x => ⟨by simp [exGoal], ["state"], rfl, by simp [exGoal]⟩
  have hset : ∀ s, ∀ k v, (k, v) ∈ exSet s → (∃ c, v = .chunk c ∧ KnownChunk exPairReg c) ∨ (k.code = '~' ∧ v = .nothing) := by
    intro s k v hm
    simp only [exSet, List.mem_cons, Prod.mk.injEq, List.not_mem_nil, or_false] at hm
    obtain ⟨rfl, rfl⟩ := hm
    exact Or.inl ⟨_, rfl, hgoal _⟩
  obtain ⟨τ, hτ⟩ := h (exPy H) exPairReg "r2" _ _ _ _ _ _ exSV exCBufs DataVal [("g", ⟨[exPair "a" "c"], []⟩)]
    (fun y => if y = "g" then some (exPair "a" "c").val else Option.none) (by
      refine exRegular cf (exPairReg_ok H) ?_ ?_ (by simp) (by simp) (by simp [exSet]) (by simp [exSet]) (hset _) (hset _) ?_ ?_ exSV_data ?_
      · intro k v hm
        simp at hm
        obtain ⟨rfl, rfl⟩ := hm
        refine Or.inl ⟨rfl, _, rfl, ⟨by simp [exPair], ["state", "x"], rfl, by simp [exPair]⟩, fun n s hs => ?_⟩
        simp [exPair] at hs
        rcases hs with ⟨_, rfl⟩ | ⟨_, rfl⟩ <;> exact Or.inl ⟨_, by decide, rfl⟩
      · intro k v hm
        simp at hm
        obtain ⟨rfl, rfl⟩ := hm
        refine Or.inl ⟨rfl, _, rfl, hgoal _, fun n s hs => ?_⟩
        simp [exGoal] at hs
        exact Or.inr ⟨_, hs.2⟩
      · intro n c m v hm hx
        simp at hm
        obtain ⟨rfl, rfl⟩ := hm
        simp [exPair, exVar, exLit] at hx
      · intro n c m v hm hx ht
        simp at hm
        obtain ⟨rfl, rfl⟩ := hm
        simp [exGoal, exVar] at hx
        obtain ⟨_, rfl⟩ := hx
        obtain ⟨p, hp⟩ := ht
        simp at hp
      · intro n p b d r hm hb hd'
        simp at hm
        have hn : n = "g" := by rcases hm with h | h <;> exact h.1
        subst hn
        simp [alook] at hb
        subst hb
        simp at hd'
        obtain ⟨rfl, _⟩ := hd'
        refine ⟨hd, fun n s hs => ?_⟩
        rcases hm with ⟨_, rfl⟩ | ⟨_, rfl⟩
        · simp [exPair] at hs ⊢
          rcases hs with ⟨rfl, _⟩ | ⟨rfl, _⟩
          · exact ⟨_, Or.inl ⟨rfl, rfl⟩⟩
          · exact ⟨_, Or.inr ⟨rfl, rfl⟩⟩
        · simp [exPair, exGoal] at hs ⊢
          exact ⟨_, Or.inl ⟨hs.1, rfl⟩⟩) (by intro b d1 d2 a v1 v2 h1; simp at h1) e (by
      refine ⟨fun y v hv => ?_, fun c hc => ?_⟩
      · split at hv
        · cases hv; exact ⟨(exData_data hd).plain, by simp [Chunk.val]⟩
        · cases hv
      · simp only [List.mem_cons, List.not_mem_nil, or_false] at hc
        subst hc
        refine .test (b := ⟨_, _⟩) (d := exPair "a" "c") (r := []) rfl rfl (condHolds_iff.2 fun n s' w hs hw => ?_) ⟨_, rfl, ?_⟩
        · simp at hs
          rcases hs with ⟨rfl, rfl⟩ | ⟨rfl, rfl⟩
          · rw [(slotHas_iff hd.1 "state" w).1 hw]
            simp [SlotTrue, exLit, exPair, matchingVal, alook, Accepts, SameVal]
          · trivial
        · simp [SameVal, Chunk.val])
  have := hτ.conds _ (List.mem_cons_self ..)
  cases this with
  | test hb hd' hc _ =>
    simp [alook] at hb
    subst hb
    simp at hd'
    obtain ⟨rfl, _⟩ := hd'
    have := (condHolds_iff.1 hc "x" (.vv (exLit "b")) (.str "c") (by simp [exPair])
      ((slotHas_iff hd.1 "x" _).2 (by simp [exPair, exLit, matchingVal, alook]))).2.2.1
    simp [exLit, Accepts, SameVal, NoRequirement] at this

/-- C66 is false: the first rule reads the state of the goal, whatever it is, and the second one tests it for "b"; the compiled rule
does not test it for "b". -/
theorem C66_refuted : ¬ C66_full := by
  intro h
  obtain ⟨H, cf⟩ := exists_collisionFree
  have e : newRule (exPy H) exCompReg "r2" ⟨.ok [(⟨'=', "g"⟩, .chunk (exGoal (exVar "x")))], .ok [(⟨'~', "manual"⟩, .nothing)]⟩
      ⟨.ok [(⟨'=', "g"⟩, .chunk (exGoal (exLit "b")))], .ok (exSet "c")⟩ [("g", .nothing), ("manual", .nothing)] exCBufs =
      .ok (some ⟨.ok [(⟨'=', "g"⟩, .chunk (exGoal (exVar "x")))], .ok [(⟨'=', "g"⟩, .chunk (exGoal (exLit "c"))), (⟨'~', "manual"⟩, .nothing)]⟩) :=
    rfl
  have hdata := exData_data (exGoal_data "a")
  obtain ⟨τ, hτ⟩ := h (exPy H) exCompReg "r2" _ _ _ _ _ _ _ exCBufs DataVal (exHandFaces "a")
    (fun y => if y = "g" then some (exGoal (exLit "a")).val else if y = "x" then some (.str "a") else Option.none)
    [(⟨'=', "g"⟩, .chunk (exGoal (exLit "b")))] (by
      refine exRegular cf (exCompReg_ok H) ?_ ?_ (by simp) (by simp) (by simp) (by simp [exSet]) ?_ (exSet_good _) ?_ ?_ ?_ ?_
      · intro k v hm
        simp at hm
        obtain ⟨rfl, rfl⟩ := hm
        exact Or.inl ⟨rfl, _, rfl, exGoal_var _⟩
      · intro k v hm
        simp at hm
        obtain ⟨rfl, rfl⟩ := hm
        exact Or.inl ⟨rfl, _, rfl, exGoal_lit (by decide)⟩
      · intro k v hm
        simp at hm
        exact Or.inr ⟨by rw [hm.1], hm.2⟩
      · intro n c m v hm hx ht
        simp at hm
        obtain ⟨rfl, rfl⟩ := hm
        simp [exGoal, exVar] at hx
        obtain ⟨_, rfl⟩ := hx
        obtain ⟨p, hp⟩ := ht
        simp at hp
      · intro n c m v hm hx
        simp at hm
        obtain ⟨rfl, rfl⟩ := hm
        simp [exGoal, exLit, exVar] at hx
      · intro b i hm
        simp at hm
        rcases hm with ⟨_, h⟩ | ⟨_, h⟩ <;> exact Or.inl h
      · intro n p b d r hm hb hd
        have hn : n = "g" ∧ ∃ x, p = exGoal x := by
          rcases List.mem_append.1 hm with h | h <;> simp at h <;> exact ⟨h.1, _, h.2⟩
        obtain ⟨rfl, x, rfl⟩ := hn
        simp [exHandFaces, alook] at hb
        subst hb
        simp at hd
        obtain ⟨rfl, _⟩ := hd
        refine ⟨exGoal_data _, fun n s' h => ?_⟩
        simp [exGoal] at h
        exact ⟨_, by simp [exGoal, h.1]; rfl⟩) e (by
      intro k v hm
      simp at hm
      obtain ⟨rfl, rfl⟩ := hm
      exact ⟨by simp, by simp⟩) (by
      refine ⟨fun y v hv => ?_, fun c hc => ?_⟩
      · split at hv
        · cases hv; exact ⟨hdata.plain, by simp [Chunk.val]⟩
        · split at hv
          · cases hv; exact ⟨by simp [PlainVal], by simp⟩
          · cases hv
      · simp only [List.mem_cons, List.not_mem_nil, or_false] at hc
        subst hc
        refine .test (b := ⟨_, _⟩) (d := exGoal (exLit "a")) (r := []) rfl rfl (condHolds_iff.2 fun n s' w hs hw => ?_) ⟨_, rfl, ?_⟩
        · simp [exGoal] at hs
          obtain ⟨rfl, rfl⟩ := hs
          rw [(slotHas_iff hdata.named "state" w).1 hw]
          simp [SlotTrue, exVar, exLit, exGoal, matchingVal, alook, Accepts, SameVal, NoRequirement]
        · simp [SameVal, Chunk.val])
  have := hτ.conds _ (List.mem_cons_self ..)
  cases this with
  | test hb hd' hc _ =>
    simp [exHandFaces, alook] at hb
    subst hb
    simp at hd'
    obtain ⟨rfl, _⟩ := hd'
    have := (condHolds_iff.1 hc "state" (.vv (exLit "b")) (.str "a") (by simp [exGoal])
      ((slotHas_iff hdata.named "state" _).2 (by simp [exGoal, exLit, matchingVal, alook]))).2.2.1
    simp [exLit, Accepts, SameVal, NoRequirement] at this

/-- Conditions on a second buffer, which has to have the value of the goal. -/
def exOther : List (Key × LVal) := [(⟨'=', "h"⟩, .chunk (exGoal (exVar "x"))), (⟨'?', "manual"⟩, .dict [("state", "free")])]

/-- The buffers: the goal is "a", the second buffer has the value that the first rule gives the goal. -/
def exOtherFaces : Faces :=
  [("g", ⟨[exGoal (exLit "a")], []⟩), ("h", ⟨[exGoal (exLit "b")], []⟩), ("manual", ⟨[], [("state", "free")]⟩)]

/-- The hypotheses of C66 are met: the second rule tests another buffer for the value that the first rule gives the goal, and the
hand. The compiled rule does so, too. -/
example {H : PyHash} (cf : H.CollisionFree) :
    RegularPair (exPy H) exCompReg [(⟨'=', "g"⟩, .chunk (exGoal (exLit "a")))] (exSet "b")
      ((⟨'=', "g"⟩, .chunk (exGoal (exVar "x"))) :: exOther) (exSet "c") exSV DataVal exOtherFaces ∧
    LeftAlone [(⟨'=', "g"⟩, .chunk (exGoal (exLit "a")))] (exSet "b") exSV ((⟨'=', "g"⟩, .chunk (exGoal (exVar "x"))) :: exOther) exOther ∧
    newRule (exPy H) exCompReg "r2" ⟨.ok [(⟨'=', "g"⟩, .chunk (exGoal (exLit "a")))], .ok (exSet "b")⟩
      ⟨.ok ((⟨'=', "g"⟩, .chunk (exGoal (exVar "x"))) :: exOther), .ok (exSet "c")⟩ exSV exCBufs =
      .ok (some ⟨.ok [(⟨'=', "g"⟩, .chunk (exGoal (exLit "a"))), (⟨'=', "h"⟩, .chunk (exGoal (exLit "b"))),
        (⟨'?', "manual"⟩, .dict [("state", "free")])], .ok (exSet "c")⟩) ∧
    ∃ σ, RuleHolds DataVal exOtherFaces [(⟨'=', "g"⟩, .chunk (exGoal (exLit "a"))), (⟨'=', "h"⟩, .chunk (exGoal (exLit "b"))),
        (⟨'?', "manual"⟩, .dict [("state", "free")])] σ := by
  refine ⟨?_, ?_, rfl, fun y => if y = "g" then some (exGoal (exLit "a")).val else if y = "h" then some (exGoal (exLit "b")).val
    else Option.none, ?_, ?_⟩
  · refine exRegular cf (exCompReg_ok H) ?_ ?_ (by simp) (by simp [exOther]) (by simp [exSet]) (by simp [exSet]) (exSet_good _) (exSet_good _)
      ?_ ?_ exSV_data ?_
    · intro k v hm
      simp at hm
      obtain ⟨rfl, rfl⟩ := hm
      exact Or.inl ⟨rfl, _, rfl, exGoal_lit (by decide)⟩
    · intro k v hm
      simp [exOther] at hm
      rcases hm with ⟨rfl, rfl⟩ | ⟨rfl, rfl⟩ | ⟨rfl, rfl⟩
      · exact Or.inl ⟨rfl, _, rfl, exGoal_var _⟩
      · exact Or.inl ⟨rfl, _, rfl, exGoal_var _⟩
      · exact Or.inr ⟨rfl, _, _, rfl, by simp⟩
    · intro n c m v hm hx
      simp at hm
      obtain ⟨rfl, rfl⟩ := hm
      simp [exGoal, exLit, exVar] at hx
    · intro n c m v hm hx ht
      have hv : v = "x" := by
        simp [exOther] at hm
        rcases hm with ⟨_, rfl⟩ | ⟨_, rfl⟩ <;> simp [exGoal, exVar] at hx <;> exact hx.2
      subst hv
      obtain ⟨p, hp⟩ := ht
      simp [exOther] at hp
    · intro n p b d r hm hb hd
      have hn : (n = "g" ∨ n = "h") ∧ ∃ x, p = exGoal x := by
        simp [exOther] at hm
        rcases hm with h | h | h
        · exact ⟨Or.inl h.1, _, h.2⟩
        · exact ⟨Or.inl h.1, _, h.2⟩
        · exact ⟨Or.inr h.1, _, h.2⟩
      obtain ⟨hn, x, rfl⟩ := hn
      have hd2 : ∃ t, d = exGoal (exLit t) := by
        rcases hn with rfl | rfl <;> simp [exOtherFaces, alook] at hb <;> subst hb <;> simp at hd <;> exact ⟨_, hd.1.symm⟩
      obtain ⟨t, rfl⟩ := hd2
      refine ⟨exGoal_data _, fun n s' h => ?_⟩
      simp [exGoal] at h
      exact ⟨_, by simp [exGoal, h.1]; rfl⟩
  · intro k v hm
    simp [exOther] at hm
    rcases hm with ⟨rfl, rfl⟩ | ⟨rfl, rfl⟩
    · refine Or.inr ⟨rfl, fun d c => by simp [exSV], _, _, rfl, by simp [exOther], fun n s h => h, fun c1 n x y h1 => ?_⟩
      simp at h1
    · refine Or.inl ⟨rfl, by simp [exOther], ?_⟩
      rintro ⟨k, v, h, hk, _⟩
      simp [exSet] at h
      rw [h.1] at hk
      simp at hk
  · intro y v hv
    have := (exData_data (exGoal_data "a")).plain
    have := (exData_data (exGoal_data "b")).plain
    split at hv
    · cases hv; exact ⟨by assumption, by simp [Chunk.val]⟩
    · split at hv
      · cases hv; exact ⟨by assumption, by simp [Chunk.val]⟩
      · cases hv
  · intro c hc
    have lit : ∀ t, CondHolds (exGoal (exLit t)) (exGoal (exLit t)) (fun y => if y = "g" then some (exGoal (exLit "a")).val else
        if y = "h" then some (exGoal (exLit "b")).val else Option.none) := by
      intro t
      refine condHolds_iff.2 fun n s' w hs hw => ?_
      simp [exGoal] at hs
      obtain ⟨rfl, rfl⟩ := hs
      rw [(slotHas_iff (exGoal_data t).1 "state" w).1 hw]
      simp [SlotTrue, exLit, exGoal, matchingVal, alook, Accepts, SameVal]
    simp only [List.mem_cons, List.not_mem_nil, or_false] at hc
    rcases hc with rfl | rfl | rfl
    · exact .test (b := ⟨_, _⟩) (d := exGoal (exLit "a")) (r := []) rfl rfl (lit "a") ⟨_, rfl, by simp [SameVal, Chunk.val]⟩
    · exact .test (b := ⟨_, _⟩) (d := exGoal (exLit "b")) (r := []) rfl rfl (lit "b") ⟨_, rfl, by simp [SameVal, Chunk.val]⟩
    · refine .query (fun a v h => ?_)
      simp at h
      obtain ⟨rfl, rfl⟩ := h
      exact ⟨_, rfl, by simp [QueryHolds, alook]⟩

end Verif.Props
