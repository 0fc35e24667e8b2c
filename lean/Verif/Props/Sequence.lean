import Verif.Lemmas.Fires
import Verif.Props.Demand
/-! # Property C67: a compiled rule does in one step what its two rules do in two -/
namespace Verif.Props
open Verif Verif.Spec

/-- The whole of C67: two rules that test, query and modify buffers are compiled with what is known after the first one. Whenever the
compiled rule can turn some buffers into others, the first rule can fire, then the second one, with the same result. -/
def C67_full : Prop := ∀ (P : Py) (reg : Reg) (name2 : String) (l1 l2 lhs : List (Key × LVal)) (r1 r2 rhs : List (Key × RVal))
  (sv : SlotVals) (bufs : List (String × CBuf)) (faces faces'' : Faces),
  RegularPair P reg l1 r1 l2 r2 sv DataVal faces → ModifyingRule reg l1 r1 → ModifyingRule reg l2 r2 → Recorded l1 r1 sv →
  Furnished l1 r1 l2 r2 faces →
  newRule P reg name2 ⟨.ok l1, .ok r1⟩ ⟨.ok l2, .ok r2⟩ sv bufs = .ok (some ⟨.ok lhs, .ok rhs⟩) →
  Fires DataVal lhs rhs faces faces'' → ∃ faces', Fires DataVal l1 r1 faces faces' ∧ Fires DataVal l2 r2 faces' faces''

/-- C67 (partial): for rules that fit together. Missing: rules that ask different things of a buffer or test it for different types
(see C65), slots that both rules test and the first one does not set (`C67_refuted`), negations in tests of what the first rule has
set, and variables of such tests that occur in several slots (`C67_vars_refuted`). -/
theorem C67_partial (P : Py) (reg : Reg) (name2 : String) (l1 l2 lhs : List (Key × LVal)) (r1 r2 rhs : List (Key × RVal))
    (sv : SlotVals) (bufs : List (String × CBuf)) (faces faces'' : Faces)
    (h : RegularPair P reg l1 r1 l2 r2 sv DataVal faces) (hm1 : ModifyingRule reg l1 r1) (hm2 : ModifyingRule reg l2 r2)
    (hk : Recorded l1 r1 sv) (hf : Furnished l1 r1 l2 r2 faces) (hA : AskAlike l1 r1 l2) (hT : TestAlike reg l1 l2)
    (hF : FitTogether name2 l1 r1 l2 r2 sv)
    (hn : newRule P reg name2 ⟨.ok l1, .ok r1⟩ ⟨.ok l2, .ok r2⟩ sv bufs = .ok (some ⟨.ok lhs, .ok rhs⟩))
    (hfire : Fires DataVal lhs rhs faces faces'') :
    ∃ faces', Fires DataVal l1 r1 faces faces' ∧ Fires DataVal l2 r2 faces' faces'' := by
  obtain ⟨C⟩ := newRule_compiling hn
  exact TwoRules.fires ⟨h.cf, h.types, h.dict1, h.dict2, h.good1, h.good2, h.queries1, h.queries2, h.names1, h.names2, h.data, h.patterns1,
    h.patterns2, h.buffers1, h.buffers2, hm1, hm2, hk, hf, hA, hT, hF⟩ C hfire

/-! ## Examples and refutations -/

/-- Slots of the examples. -/
def ExSlot (x : VarVal) : Prop :=
  (∃ t, t ≠ "None" ∧ t ≠ "" ∧ x = exLit t) ∨ ∃ v, v ≠ "" ∧ v ≠ "g" ∧ v ≠ "h" ∧ x = exVar v

/-- Rules of the examples: they test and modify two buffers `g` and `h`. -/
structure ExRule (l : List (Key × LVal)) (r : List (Key × RVal)) : Prop where
  keysL : (l.map Prod.fst).Nodup
  keysR : (r.map Prod.fst).Nodup
  lhs : ∀ k v, (k, v) ∈ l → ∃ n x, k = ⟨'=', n⟩ ∧ (n = "g" ∨ n = "h") ∧ v = .chunk (exGoal x) ∧ ExSlot x
  rhs : ∀ k v, (k, v) ∈ r → ∃ n x, k = ⟨'=', n⟩ ∧ (n = "g" ∨ n = "h") ∧ v = .chunk (exGoal x) ∧ ExSlot x ∧
    ∀ y, x.vars = some y → PosVar l y

/-- The two buffers. -/
def exTwoFaces (s t : String) : Faces := [("g", ⟨[exGoal (exLit s)], []⟩), ("h", ⟨[exGoal (exLit t)], []⟩)]

theorem exTwoFaces_data {s t n : String} {f : BufFace} {d : Chunk} {rest : List Chunk} (hf : alook n (exTwoFaces s t) = some f)
    (hd : f.data = d :: rest) : (n = "g" ∧ d = exGoal (exLit s) ∨ n = "h" ∧ d = exGoal (exLit t)) ∧ rest = [] ∧ f.attrs = [] := by
  simp only [exTwoFaces, alook] at hf
  split at hf
  · cases hf; cases hd; exact ⟨Or.inl ⟨by symm; assumption, rfl⟩, rfl, rfl⟩
  · split at hf
    · cases hf; cases hd; exact ⟨Or.inr ⟨by symm; assumption, rfl⟩, rfl, rfl⟩
    · cases hf

/-- Buffers with these two chunks. -/
def ExFaces (s t : String) (faces : Faces) : Prop :=
  ∀ n f d rest, alook n faces = some f → f.data = d :: rest → n = "g" ∧ d = exGoal (exLit s) ∨ n = "h" ∧ d = exGoal (exLit t)

theorem exTwoFaces_faces (s t : String) : ExFaces s t (exTwoFaces s t) := fun _ _ _ _ hf hd => (exTwoFaces_data hf hd).1

theorem exGoal_covers (x y : VarVal) : Covers (exGoal x) (exGoal y) := by
  intro n s h
  simp [exGoal] at h
  exact ⟨_, by simp [exGoal, h.1]; rfl⟩

theorem exSlot_chunk {x : VarVal} (h : ExSlot x) : ExChunk exCompReg (exGoal x) := by
  rcases h with ⟨t, h, _, rfl⟩ | ⟨v, _, _, _, rfl⟩
  · exact exGoal_lit h
  · exact exGoal_var v

theorem exRule_regular_of {H : PyHash} (cf : H.CollisionFree) {l1 l2 : List (Key × LVal)} {r1 r2 : List (Key × RVal)} (h1 : ExRule l1 r1)
    (h2 : ExRule l2 r2) {sv : SlotVals} (hsv : ∀ b i, (b, i) ∈ sv → i = .nothing ∨ ∃ x, i = .dict [("state", .vv x)] ∧ ExSlot x)
    {s t : String} {faces : Faces} (hfaces : ExFaces s t faces) : RegularPair (exPy H) exCompReg l1 r1 l2 r2 sv DataVal faces := by
  have lhs : ∀ {l r}, ExRule l r → ExLhs exCompReg l := by
    intro l r h k v hm
    obtain ⟨n, x, rfl, _, rfl, hx⟩ := h.lhs k v hm
    exact Or.inl ⟨rfl, _, rfl, exSlot_chunk hx⟩
  have rhs : ∀ {l r}, ExRule l r → ∀ k v, (k, v) ∈ r → (∃ c, v = .chunk c ∧ KnownChunk exCompReg c) ∨ (k.code = '~' ∧ v = .nothing) := by
    intro l r h k v hm
    obtain ⟨n, x, _, _, rfl, _⟩ := h.rhs k v hm
    exact Or.inl ⟨_, rfl, exGoal_known x⟩
  have vars : ∀ {l r}, ExRule l r → ∀ n c m v, ((⟨'=', n⟩ : Key), LVal.chunk c) ∈ l → (m, SlotOf.vv (exVar v)) ∈ c.slots → ¬ Tested l v := by
    rintro l r h n c m v hm hx ⟨p, ht⟩
    obtain ⟨_, x, _, _, e, hs⟩ := h.lhs _ _ hm
    cases e
    simp [exGoal] at hx
    obtain ⟨n', _, e, hn, _⟩ := h.lhs _ _ ht
    cases e
    rcases hs with ⟨t, _, _, rfl⟩ | ⟨u, _, hg, hh, rfl⟩
    · simp [exVar, exLit] at hx
    · simp [exVar] at hx
      obtain ⟨_, rfl⟩ := hx
      rcases hn with h | h
      · exact hg h
      · exact hh h
  have base : RegularPair (exPy H) exCompReg l1 r1 l2 r2 [] DataVal faces := by
    refine exRegular cf (exCompReg_ok H) (lhs h1) (lhs h2) h1.keysL h2.keysL h1.keysR h2.keysR (rhs h1) (rhs h2) (vars h1) (vars h2)
      (by simp) ?_
    intro n p b d r hm hb hd
    have hp : ∃ x, p = exGoal x := by
      rcases List.mem_append.1 hm with h | h
      · obtain ⟨_, x, _, _, e, _⟩ := h1.lhs _ _ h; cases e; exact ⟨x, rfl⟩
      · obtain ⟨_, x, _, _, e, _⟩ := h2.lhs _ _ h; cases e; exact ⟨x, rfl⟩
    obtain ⟨x, rfl⟩ := hp
    rcases hfaces _ _ _ _ hb hd with ⟨_, rfl⟩ | ⟨_, rfl⟩ <;> exact ⟨exGoal_data _, exGoal_covers _ _⟩
  refine { base with data := ?_ }
  intro v hv
  cases hv with
  | test hm hx => exact base.data _ (.test hm hx)
  | known hm hx =>
    rcases hsv _ _ hm with e | ⟨x, e, hs⟩ <;> cases e
    simp at hx
    obtain ⟨_, rfl⟩ := hx
    rcases hs with ⟨t, _, _, rfl⟩ | ⟨u, _, _, _, rfl⟩ <;> simp [exLit, exVar, PlainVal]
  | retrieved hm hx => rcases hsv _ _ hm with e | ⟨x, e, hs⟩ <;> cases e

theorem exRule_regular {H : PyHash} (cf : H.CollisionFree) {l1 l2 : List (Key × LVal)} {r1 r2 : List (Key × RVal)} (h1 : ExRule l1 r1)
    (h2 : ExRule l2 r2) {sv : SlotVals} (hsv : ∀ b i, (b, i) ∈ sv → i = .nothing ∨ ∃ x, i = .dict [("state", .vv x)] ∧ ExSlot x)
    (s t : String) : RegularPair (exPy H) exCompReg l1 r1 l2 r2 sv DataVal (exTwoFaces s t) :=
  exRule_regular_of cf h1 h2 hsv (exTwoFaces_faces s t)

theorem exRule_modifying {l : List (Key × LVal)} {r : List (Key × RVal)} (h : ExRule l r) : ModifyingRule exCompReg l r := by
  refine ⟨fun k v hm => ?_, fun k v hm => ?_, fun b c n x hm hx => ?_, fun b c n x hm hx => ?_, fun b c n hm hn => ?_,
    fun b c n x y hm hx hy => ?_⟩
  · obtain ⟨_, _, rfl, _⟩ := h.lhs k v hm; exact Or.inl rfl
  · obtain ⟨_, _, rfl, _⟩ := h.rhs k v hm; rfl
  · obtain ⟨_, x', _, _, e, hs⟩ := h.lhs _ _ hm
    cases e
    simp [exGoal] at hx
    obtain ⟨_, rfl⟩ := hx
    rcases hs with ⟨t, _, ht, rfl⟩ | ⟨u, hu, _, _, rfl⟩
    · exact ⟨by simp [exLit, NoRequirement, ht], by simp [exLit], by simp [exLit]⟩
    · exact ⟨by simp [exVar], by simp [exVar, hu], by simp [exVar]⟩
  · obtain ⟨_, x', _, _, e, hs, _⟩ := h.rhs _ _ hm
    cases e
    simp [exGoal] at hx
    obtain ⟨_, rfl⟩ := hx
    rcases hs with ⟨t, _, ht, rfl⟩ | ⟨u, hu, _, _, rfl⟩
    · exact ⟨by simp [exLit], by simp [exLit, PlainVal], Or.inl (by simp [exLit, NoRequirement, ht])⟩
    · exact ⟨by simp [exVar], by simp [exVar, PlainVal], Or.inr (by simp [exVar, hu])⟩
  · obtain ⟨_, x', _, _, e, _⟩ := h.rhs _ _ hm
    cases e
    simpa [exGoal, exCompReg, alook] using hn
  · obtain ⟨_, x', _, _, e, _, hb⟩ := h.rhs _ _ hm
    cases e
    simp [exGoal] at hx
    obtain ⟨_, rfl⟩ := hx
    exact hb y hy

theorem exRule_furnished_of {l1 l2 : List (Key × LVal)} {r1 r2 : List (Key × RVal)} (h1 : ExRule l1 r1) (h2 : ExRule l2 r2) {s t : String}
    {faces : Faces} (hfaces : ExFaces s t faces) : Furnished l1 r1 l2 r2 faces := by
  refine ⟨fun b f d rest hf hd => ?_, fun b c f d rest hm hf hd => ?_, fun b c f d rest hm hf hd => ?_⟩
  · rcases hfaces _ _ _ _ hf hd with ⟨_, rfl⟩ | ⟨_, rfl⟩ <;> exact exData_data (exGoal_data _)
  · have hp : ∃ x, c = exGoal x := by
      rcases List.mem_append.1 hm with h | h
      · obtain ⟨_, x, _, _, e, _⟩ := h1.lhs _ _ h; cases e; exact ⟨x, rfl⟩
      · obtain ⟨_, x, _, _, e, _⟩ := h2.lhs _ _ h; cases e; exact ⟨x, rfl⟩
    obtain ⟨x, rfl⟩ := hp
    rcases hfaces _ _ _ _ hf hd with ⟨_, rfl⟩ | ⟨_, rfl⟩ <;> exact exGoal_covers _ _
  · have hp : ∃ x, c = exGoal x := by
      rcases List.mem_append.1 hm with h | h
      · obtain ⟨_, x, _, _, e, _⟩ := h1.rhs _ _ h; cases e; exact ⟨x, rfl⟩
      · obtain ⟨_, x, _, _, e, _⟩ := h2.rhs _ _ h; cases e; exact ⟨x, rfl⟩
    obtain ⟨x, rfl⟩ := hp
    rcases hfaces _ _ _ _ hf hd with ⟨_, rfl⟩ | ⟨_, rfl⟩ <;> exact exGoal_covers _ _

theorem exRule_furnished {l1 l2 : List (Key × LVal)} {r1 r2 : List (Key × RVal)} (h1 : ExRule l1 r1) (h2 : ExRule l2 r2) (s t : String) :
    Furnished l1 r1 l2 r2 (exTwoFaces s t) := exRule_furnished_of h1 h2 (exTwoFaces_faces s t)

theorem exRule_ask {l1 l2 : List (Key × LVal)} {r1 : List (Key × RVal)} (h1 : ExRule l1 r1) : AskAlike l1 r1 l2 := by
  intro b d1 d2 a v1 v2 hm
  obtain ⟨_, _, e, _⟩ := h1.lhs _ _ hm
  simp at e

theorem exRule_test {l1 l2 : List (Key × LVal)} {r1 r2 : List (Key × RVal)} (h1 : ExRule l1 r1) (h2 : ExRule l2 r2) :
    TestAlike exCompReg l1 l2 := by
  intro b c1 c2 m1 m2
  obtain ⟨_, _, _, _, e1, _⟩ := h1.lhs _ _ m1
  obtain ⟨_, _, _, _, e2, _⟩ := h2.lhs _ _ m2
  cases e1
  cases e2
  exact ⟨["state"], rfl, by simp [exGoal]⟩

/-- Modifying one buffer. -/
def exPutIn (n : String) (x : VarVal) : List (Key × RVal) := [(⟨'=', n⟩, .chunk (exGoal x))]

/-- What is known after this. -/
def exSVof (n m : String) (y : VarVal) : SlotVals := [(m, .nothing), (n, .dict [("state", .vv y)])]

theorem exSVof_fine {n m : String} {y : VarVal} (h : ExSlot y) :
    ∀ b i, (b, i) ∈ exSVof n m y → i = .nothing ∨ ∃ x, i = .dict [("state", .vv x)] ∧ ExSlot x := by
  intro b i hm
  simp only [exSVof, List.mem_cons, Prod.mk.injEq, List.not_mem_nil, or_false] at hm
  rcases hm with ⟨_, rfl⟩ | ⟨_, rfl⟩
  · exact Or.inl rfl
  · exact Or.inr ⟨y, rfl, h⟩

theorem exSVof_recorded {n m : String} {y : VarVal} {l : List (Key × LVal)} (h : ExRule l (exPutIn n y)) (hnm : m ≠ n) :
    Recorded l (exPutIn n y) (exSVof n m y) := by
  refine ⟨by simp [exSVof, hnm], fun b c hm => ?_, fun b hb => ?_⟩
  · simp [exPutIn] at hm
    obtain ⟨rfl, rfl⟩ := hm
    refine ⟨[("state", .vv y)], by simp [exSVof, alook, hnm], by simp, fun n' x hx => ?_, fun n' hn => ?_⟩
    · simp [exGoal] at hx
      obtain ⟨rfl, rfl⟩ := hx
      simp [alook]
    · have hne : "state" ≠ n' := fun e => hn y (by simp [exGoal, ← e])
      refine ⟨fun c1 h1 => ?_, fun _ => by simp [alook, hne]⟩
      obtain ⟨_, x1, _, _, e, _⟩ := h.lhs _ _ h1
      cases e
      simp [exGoal, alook, hne]
  · have : n ≠ b := fun e => hb (exGoal y) (by simp [exPutIn, e])
    simp only [exSVof, alook, if_neg this]
    split
    · exact Or.inr rfl
    · exact Or.inl rfl

/-- The slot says that the value is `s`. -/
def ExSays (σ : String → Option Val) (x : VarVal) (s : String) : Prop := x = exLit s ∨ ∃ v, v ≠ "" ∧ x = exVar v ∧ σ v = some (.str s)

theorem exGoal_cond {σ : String → Option Val} {x : VarVal} {s : String} (h : ExSays σ x s) : CondHolds (exGoal x) (exGoal (exLit s)) σ := by
  refine condHolds_iff.2 fun n s' w hs hw => ?_
  simp [exGoal] at hs
  obtain ⟨rfl, rfl⟩ := hs
  rw [(slotHas_iff (exGoal_data s).1 "state" w).1 hw]
  rcases h with rfl | ⟨v, _, rfl, hv⟩
  · simp [SlotTrue, exLit, exGoal, matchingVal, alook, Accepts, SameVal]
  · simp [SlotTrue, exVar, exLit, exGoal, matchingVal, alook, Accepts, SameVal, NoRequirement, hv]

theorem exGoal_changed {σ : String → Option Val} {x : VarVal} {s s' : String} (h : ExSays σ x s') :
    Changed σ (exGoal x) (exGoal (exLit s)) (exGoal (exLit s')) := by
  refine ⟨rfl, exData_data (exGoal_data _), fun n => by simp [exGoal], fun n y w hm hw => ?_, fun n w w' hm hw hw' => ?_⟩
  · have hm := hm.1
    simp [exGoal] at hm
    obtain ⟨rfl, rfl⟩ := hm
    rw [(slotHas_iff (exGoal_data s').1 "state" w).1 hw]
    have e : matchingVal (exGoal (exLit s')) "state" = .str s' := by simp [matchingVal, exGoal, alook, exLit]
    rw [e]
    rcases h with rfl | ⟨v, hv0, rfl, hv⟩
    · exact ⟨by simp [exLit], fun _ => by simp [exLit, SameVal], by simp [exLit]⟩
    · exact ⟨by simp [exVar], by simp [exVar], fun y hy _ => by cases hy; exact ⟨_, hv, by simp [SameVal]⟩⟩
  · by_cases hn : n = "state"
    · subst hn
      refine absurd ⟨by simp [exGoal], ?_⟩ (hm x)
      rcases h with rfl | ⟨v, hv0, rfl, hv⟩
      · exact Or.inl (by simp [exLit])
      · exact Or.inr (Or.inl ⟨v, rfl, hv0⟩)
    · have hne : "state" ≠ n := Ne.symm hn
      rw [(slotHas_iff (exGoal_data _).1 n w).1 hw, (slotHas_iff (exGoal_data _).1 n w').1 hw']
      simp [matchingVal, exGoal, alook, hne, SameVal]

theorem exTwo_holds {σ : String → Option Val} {s t : String} {l : List (Key × LVal)} (hd : ∀ y v, σ y = some v → DataVal v)
    (hg : σ "g" = some (exGoal (exLit s)).val) (hh : σ "h" = some (exGoal (exLit t)).val)
    (hl : ∀ p ∈ l, (∃ x, p = (⟨'=', "g"⟩, .chunk (exGoal x)) ∧ ExSays σ x s) ∨ ∃ x, p = (⟨'=', "h"⟩, .chunk (exGoal x)) ∧ ExSays σ x t) :
    RuleHolds DataVal (exTwoFaces s t) l σ := by
  refine ⟨hd, fun p hp => ?_⟩
  rcases hl p hp with ⟨x, rfl, hx⟩ | ⟨x, rfl, hx⟩
  · exact .test (b := ⟨_, _⟩) (d := exGoal (exLit s)) (r := []) rfl rfl (exGoal_cond hx) ⟨_, hg, by simp [SameVal, Chunk.val]⟩
  · exact .test (b := ⟨_, _⟩) (d := exGoal (exLit t)) (r := []) rfl rfl (exGoal_cond hx) ⟨_, hh, by simp [SameVal, Chunk.val]⟩

theorem exTwo_modified {σ : String → Option Val} {s t s' t' : String} {r : List (Key × RVal)}
    (hr : ∀ b c, ((⟨'=', b⟩ : Key), RVal.chunk c) ∈ r → (b = "g" ∧ ∃ x, c = exGoal x ∧ ExSays σ x s') ∨ (b = "h" ∧ ∃ x, c = exGoal x ∧ ExSays σ x t'))
    (hg : (∀ c, ((⟨'=', "g"⟩ : Key), RVal.chunk c) ∉ r) → s' = s) (hh : (∀ c, ((⟨'=', "h"⟩ : Key), RVal.chunk c) ∉ r) → t' = t) :
    Modified σ r (exTwoFaces s t) (exTwoFaces s' t') := by
  refine ⟨fun b c hm => ?_, fun b hb => ?_⟩
  · rcases hr b c hm with ⟨rfl, x, rfl, hx⟩ | ⟨rfl, x, rfl, hx⟩
    · exact ⟨_, _, _, _, rfl, rfl, rfl, exGoal_changed hx⟩
    · exact ⟨_, _, _, _, rfl, rfl, rfl, exGoal_changed hx⟩
  · by_cases h1 : "g" = b
    · subst h1; rw [hg hb]; rfl
    · by_cases h2 : "h" = b
      · subst h2; rw [hh hb]; rfl
      · simp [exTwoFaces, alook, h1, h2]

/-- Testing both buffers. -/
def exBoth (a b : VarVal) : List (Key × LVal) := [(⟨'=', "g"⟩, .chunk (exGoal a)), (⟨'=', "h"⟩, .chunk (exGoal b))]

/-- Testing one buffer. -/
def exTestOf (n : String) (b : VarVal) : List (Key × LVal) := [(⟨'=', n⟩, .chunk (exGoal b))]

theorem exBoth_rule {a b y : VarVal} {n : String} (ha : ExSlot a) (hb : ExSlot b) (hy : ExSlot y) (hn : n = "g" ∨ n = "h")
    (hv : ∀ v, y.vars = some v → a.vars = some v) : ExRule (exBoth a b) (exPutIn n y) := by
  refine ⟨by simp [exBoth], by simp [exPutIn], fun k v hm => ?_, fun k v hm => ?_⟩
  · simp [exBoth] at hm
    rcases hm with ⟨rfl, rfl⟩ | ⟨rfl, rfl⟩
    · exact ⟨"g", a, rfl, Or.inl rfl, rfl, ha⟩
    · exact ⟨"h", b, rfl, Or.inr rfl, rfl, hb⟩
  · simp [exPutIn] at hm
    obtain ⟨rfl, rfl⟩ := hm
    exact ⟨n, y, rfl, hn, rfl, hy, fun v h => ⟨"g", exGoal a, "state", a, by simp [exBoth], by simp [exGoal], hv v h⟩⟩

theorem exTestOf_rule {a y : VarVal} {m n : String} (ha : ExSlot a) (hy : ExSlot y) (hm : m = "g" ∨ m = "h") (hn : n = "g" ∨ n = "h")
    (hv : ∀ v, y.vars = some v → a.vars = some v) : ExRule (exTestOf m a) (exPutIn n y) := by
  refine ⟨by simp [exTestOf], by simp [exPutIn], fun k v h => ?_, fun k v h => ?_⟩
  · simp [exTestOf] at h
    obtain ⟨rfl, rfl⟩ := h
    exact ⟨m, a, rfl, hm, rfl, ha⟩
  · simp [exPutIn] at h
    obtain ⟨rfl, rfl⟩ := h
    exact ⟨n, y, rfl, hn, rfl, hy, fun v h => ⟨m, exGoal a, "state", a, by simp [exTestOf], by simp [exGoal], hv v h⟩⟩

theorem exBoth_says {σ : String → Option Val} {a b : VarVal} {s t : String} (ha : ExSays σ a s) (hb : ExSays σ b t) :
    ∀ p ∈ exBoth a b, (∃ x, p = ((⟨'=', "g"⟩ : Key), LVal.chunk (exGoal x)) ∧ ExSays σ x s) ∨
      ∃ x, p = ((⟨'=', "h"⟩ : Key), LVal.chunk (exGoal x)) ∧ ExSays σ x t := by
  intro p hp
  simp only [exBoth, List.mem_cons, List.not_mem_nil, or_false] at hp
  rcases hp with rfl | rfl
  · exact Or.inl ⟨a, rfl, ha⟩
  · exact Or.inr ⟨b, rfl, hb⟩

theorem exSlot_lit {t : String} (h : t ≠ "None") (h0 : t ≠ "") : ExSlot (exLit t) := Or.inl ⟨t, h, h0, rfl⟩

theorem exSlot_var {v : String} (h0 : v ≠ "") (hg : v ≠ "g") (hh : v ≠ "h") : ExSlot (exVar v) := Or.inr ⟨v, h0, hg, hh, rfl⟩

/-- The assignment for the two buffers, with values for two variables. -/
def exAssign (s t x y : String) : String → Option Val := fun v =>
  if v = "g" then some (exGoal (exLit s)).val else if v = "h" then some (exGoal (exLit t)).val else
  if v = "x" then some (.str x) else if v = "y__rule__r2" then some (.str y) else Option.none

theorem exAssign_data (s t x y : String) : ∀ n v, exAssign s t x y n = some v → DataVal v := by
  intro n v hv
  have h1 := (exData_data (exGoal_data s)).plain
  have h2 := (exData_data (exGoal_data t)).plain
  simp only [exAssign] at hv
  split at hv
  · cases hv; exact ⟨h1, by simp [Chunk.val]⟩
  split at hv
  · cases hv; exact ⟨h2, by simp [Chunk.val]⟩
  split at hv
  · cases hv; exact ⟨by simp [PlainVal], by simp⟩
  split at hv
  · cases hv; exact ⟨by simp [PlainVal], by simp⟩
  · cases hv

/-- C67 is false: the first rule needs "a" in `g` and the second one "c"; no rule changes this, so they cannot fire one after the
other, but the compiled rule fires. -/
theorem C67_refuted : ¬ C67_full := by
  intro h
  obtain ⟨H, cf⟩ := exists_collisionFree
  have h1 : ExRule (exBoth (exLit "a") (exLit "a")) (exPutIn "h" (exLit "b")) :=
    exBoth_rule (exSlot_lit (by decide) (by decide)) (exSlot_lit (by decide) (by decide)) (exSlot_lit (by decide) (by decide)) (by simp)
      (by simp [exLit])
  have h2 : ExRule (exBoth (exLit "c") (exLit "b")) (exPutIn "h" (exLit "d")) :=
    exBoth_rule (exSlot_lit (by decide) (by decide)) (exSlot_lit (by decide) (by decide)) (exSlot_lit (by decide) (by decide)) (by simp)
      (by simp [exLit])
  have e : newRule (exPy H) exCompReg "r2" ⟨.ok (exBoth (exLit "a") (exLit "a")), .ok (exPutIn "h" (exLit "b"))⟩
      ⟨.ok (exBoth (exLit "c") (exLit "b")), .ok (exPutIn "h" (exLit "d"))⟩ (exSVof "h" "g" (exLit "b")) exCBufs =
      .ok (some ⟨.ok (exBoth (exLit "a") (exLit "a")), .ok (exPutIn "h" (exLit "d"))⟩) := rfl
  obtain ⟨faces', ⟨σ1, _, hM⟩, ⟨σ2, hH, _⟩⟩ := h (exPy H) exCompReg "r2" _ _ _ _ _ _ _ exCBufs (exTwoFaces "a" "a") (exTwoFaces "a" "d")
    (exRule_regular cf h1 h2 (exSVof_fine (exSlot_lit (by decide) (by decide))) "a" "a") (exRule_modifying h1) (exRule_modifying h2)
    (exSVof_recorded h1 (by decide)) (exRule_furnished h1 h2 _ _) e
    ⟨exAssign "a" "a" "" "", exTwo_holds (exAssign_data _ _ _ _) rfl rfl (exBoth_says (Or.inl rfl) (Or.inl rfl)),
      exTwo_modified (fun b c hm => by simp [exPutIn] at hm; exact Or.inr ⟨hm.1, _, hm.2, Or.inl rfl⟩) (by simp) (by simp [exPutIn])⟩
  have hg : alook "g" faces' = some ⟨[exGoal (exLit "a")], []⟩ := by
    rw [hM.rest "g" (by simp [exPutIn])]; rfl
  have := hH.conds (⟨'=', "g"⟩, .chunk (exGoal (exLit "c"))) (by simp [exBoth])
  cases this with
  | test hb hd hc _ =>
    rw [hg] at hb
    cases hb
    cases hd
    have := (condHolds_iff.1 hc "state" (.vv (exLit "c")) (.str "a") (by simp [exGoal])
      ((slotHas_iff (exGoal_data _).1 "state" _).2 (by simp [exGoal, exLit, matchingVal, alook]))).2.2.1
    simp [exLit, Accepts, SameVal, NoRequirement] at this

/-- C67 for rules that never test the same slot except where the first rule sets it. -/
def C67_vars_full : Prop := ∀ (P : Py) (reg : Reg) (name2 : String) (l1 l2 lhs : List (Key × LVal)) (r1 r2 rhs : List (Key × RVal))
  (sv : SlotVals) (bufs : List (String × CBuf)) (faces faces'' : Faces),
  RegularPair P reg l1 r1 l2 r2 sv DataVal faces → ModifyingRule reg l1 r1 → ModifyingRule reg l2 r2 → Recorded l1 r1 sv →
  Furnished l1 r1 l2 r2 faces → AskAlike l1 r1 l2 → TestAlike reg l1 l2 →
  (∀ b c1 c2, ((⟨'=', b⟩ : Key), LVal.chunk c1) ∈ l1 → ((⟨'=', b⟩ : Key), LVal.chunk c2) ∈ l2 →
    ∃ c, ((⟨'=', b⟩ : Key), RVal.chunk c) ∈ r1 ∧ ∀ n s, (n, s) ∈ c2.slots → ∃ x, (n, SlotOf.vv x) ∈ c.slots) →
  newRule P reg name2 ⟨.ok l1, .ok r1⟩ ⟨.ok l2, .ok r2⟩ sv bufs = .ok (some ⟨.ok lhs, .ok rhs⟩) →
  Fires DataVal lhs rhs faces faces'' → ∃ faces', Fires DataVal l1 r1 faces faces' ∧ Fires DataVal l2 r2 faces' faces''

/-- The result of compilation, step by step. -/
theorem newRule_steps {P : Py} {reg : Reg} {name2 : String} {b1 b2 new : Body} {sv sv' sv'' : SlotVals} {bufs : List (String × CBuf)}
    {sc : Scan} {l2 : List (Key × LVal)} {st : MatchSt} (h1 : checkCompilation bufs b1 b2 = .ok false)
    (h2 : scanSlotVals bufs sv ⟨[], Option.none⟩ = .ok (some sc)) (h3 : (renameBody P.toPyEnv reg name2 sc.used b2).lhs = .ok l2)
    (h4 : matchRules P l2 sv sv ⟨[], []⟩ = .ok (sv', st)) (h5 : substSlotVals P st sv' = .ok sv'')
    (h6 : collapse P.toPyEnv reg (substBody P reg st.matched st.valued b1)
      (substBody P reg st.matched st.valued (renameBody P.toPyEnv reg name2 sc.used b2)) sv'' sc.retrieval = new) :
    newRule P reg name2 b1 b2 sv bufs = .ok (some new) := by
  simp [newRule, h1, Except.bind, h2, h3, h4, h5, h6, Except.map]

/-- C67 is false for rules whose tests of what the first rule has set share a variable with another test: the second rule needs the
same value in `g` and `h`, the compiled rule does not. -/
theorem C67_vars_refuted : ¬ C67_vars_full := by
  intro h
  obtain ⟨H, cf⟩ := exists_collisionFree
  have vx : ExSlot (exVar "x") := exSlot_var (by decide) (by decide) (by decide)
  have vy : ExSlot (exVar "y") := exSlot_var (by decide) (by decide) (by decide)
  have h1 : ExRule (exTestOf "g" (exVar "x")) (exPutIn "g" (exVar "x")) := exTestOf_rule vx vx (by simp) (by simp) (fun _ h => h)
  have h2 : ExRule (exBoth (exVar "y") (exVar "y")) (exPutIn "g" (exLit "c")) :=
    exBoth_rule vy vy (exSlot_lit (by decide) (by decide)) (by simp) (by simp [exLit])
  have e : newRule (exPy H) exCompReg "r2" ⟨.ok (exTestOf "g" (exVar "x")), .ok (exPutIn "g" (exVar "x"))⟩
      ⟨.ok (exBoth (exVar "y") (exVar "y")), .ok (exPutIn "g" (exLit "c"))⟩ (exSVof "g" "h" (exVar "x")) exCBufs =
      .ok (some ⟨.ok (exBoth (exVar "x") (exVar "y__rule__r2")), .ok (exPutIn "g" (exLit "c"))⟩) :=
    newRule_steps (l2 := exBoth (exVar "y__rule__r2") (exVar "y__rule__r2")) (sv' := exSVof "g" "h" (exVar "x"))
      (st := ⟨[("y__rule__r2", "y__rule__r2"), ("x", "x")], []⟩) (sv'' := exSVof "g" "h" (exVar "x")) rfl rfl rfl rfl rfl rfl
  obtain ⟨faces', ⟨σ1, hH1, hM⟩, ⟨σ2, hH, _⟩⟩ := h (exPy H) exCompReg "r2" _ _ _ _ _ _ _ exCBufs (exTwoFaces "a" "b") (exTwoFaces "c" "b")
    (exRule_regular cf h1 h2 (exSVof_fine vx) "a" "b") (exRule_modifying h1) (exRule_modifying h2)
    (exSVof_recorded h1 (by decide)) (exRule_furnished h1 h2 _ _) (exRule_ask h1) (exRule_test h1 h2) (by
      intro b c1 c2 m1 m2
      simp [exTestOf] at m1
      obtain ⟨rfl, rfl⟩ := m1
      simp [exBoth] at m2
      refine ⟨exGoal (exVar "x"), by simp [exPutIn], fun n s hs => ?_⟩
      rw [m2] at hs
      simp [exGoal] at hs
      exact ⟨exVar "x", by simp [exGoal, hs.1]⟩) e
    ⟨exAssign "a" "b" "a" "b", exTwo_holds (exAssign_data _ _ _ _) rfl rfl
        (exBoth_says (Or.inr ⟨"x", by decide, rfl, rfl⟩) (Or.inr ⟨"y__rule__r2", by decide, rfl, rfl⟩)),
      exTwo_modified (fun b c hm => by simp [exPutIn] at hm; exact Or.inl ⟨hm.1, _, hm.2, Or.inl rfl⟩) (by simp [exPutIn]) (by simp)⟩
  have hh : alook "h" faces' = some ⟨[exGoal (exLit "b")], []⟩ := by
    rw [hM.rest "h" (by simp [exPutIn])]; rfl
  -- the first rule leaves "a" in `g`
  have hval : ∀ (σ : String → Option Val) (y : String) (d : Chunk) (w : Val), y ≠ "" → CondHolds (exGoal (exVar y)) d σ → SlotHas d "state" w →
      ∃ v, σ y = some v ∧ SameVal v w := by
    intro σ y d w hy hc hw
    have := condHolds_iff.1 hc "state" (.vv (exVar y)) w (by simp [exGoal]) hw
    exact this.1 y rfl hy
  obtain ⟨f, d, rest, d1, hf, hd, hf', hch⟩ := hM.acted "g" (exGoal (exVar "x")) (by simp [exPutIn])
  cases hf
  cases hd
  have hx : σ1 "x" = some (.str "a") := by
    have := hH1.conds (⟨'=', "g"⟩, .chunk (exGoal (exVar "x"))) (by simp [exTestOf])
    cases this with
    | test hb hd hc _ =>
      cases hb
      cases hd
      obtain ⟨v, hv, hs⟩ := hval σ1 "x" _ (.str "a") (by decide) hc
        ((slotHas_iff (exGoal_data _).1 "state" _).2 (by simp [exGoal, exLit, matchingVal, alook]))
      cases v <;> simp [SameVal] at hs
      rw [hv, hs]
  have hw1 : SameVal (.str "a") (matchingVal d1 "state") := by
    have hm : MentionsSlot (exGoal (exVar "x")) "state" (exVar "x") := ⟨by simp [exGoal], Or.inr (Or.inl ⟨"x", rfl, by decide⟩)⟩
    obtain ⟨v, hv, hs⟩ := (hch.given "state" (exVar "x") _ hm ((slotHas_iff hch.data.named "state" _).2 rfl)).var "x" rfl (by decide)
    rw [hx] at hv
    cases hv
    exact hs
  have y1 : ∃ v, σ2 "y" = some v ∧ SameVal v (matchingVal d1 "state") := by
    have := hH.conds (⟨'=', "g"⟩, .chunk (exGoal (exVar "y"))) (by simp [exBoth])
    cases this with
    | test hb hd hc _ =>
      rw [hf'] at hb
      cases hb
      cases hd
      exact hval σ2 "y" _ _ (by decide) hc ((slotHas_iff hch.data.named "state" _).2 rfl)
  have y2 : ∃ v, σ2 "y" = some v ∧ SameVal v (.str "b") := by
    have := hH.conds (⟨'=', "h"⟩, .chunk (exGoal (exVar "y"))) (by simp [exBoth])
    cases this with
    | test hb hd hc _ =>
      rw [hh] at hb
      cases hb
      cases hd
      exact hval σ2 "y" _ _ (by decide) hc ((slotHas_iff (exGoal_data _).1 "state" _).2 (by simp [exGoal, exLit, matchingVal, alook]))
  obtain ⟨v, hv, hs1⟩ := y1
  obtain ⟨v', hv', hs2⟩ := y2
  rw [hv] at hv'
  cases hv'
  generalize matchingVal d1 "state" = w at hw1 hs1
  cases w <;> cases v <;> simp [SameVal] at hw1 hs1 hs2
  rw [hs1] at hs2
  simp [← hw1] at hs2

/-- The slots of the first rule's copy meet only the variable of the second rule. -/
theorem exCopies_fit (l1 : List (Key × LVal)) : FitTogether "r2" l1 (exPutIn "h" (exVar "x")) (exTestOf "h" (exVar "y")) (exPutIn "g" (exVar "y"))
    (exSVof "h" "g" (exVar "x")) := by
  generalize hr1 : exPutIn "h" (exVar "x") = r1
  generalize hl2 : exTestOf "h" (exVar "y") = l2
  generalize hr2 : exPutIn "g" (exVar "y") = r2
  generalize hsv : exSVof "h" "g" (exVar "x") = sv
  have meet : ∀ b n x y, Meeting r1 l2 sv b n x y → b = "h" ∧ n = "state" ∧ x = exVar "y" ∧ y = exVar "x" := by
    rintro b n x y ⟨c, c2, d, _, m2, hx, hd, hy⟩
    simp [← hl2, exTestOf] at m2
    obtain ⟨rfl, rfl⟩ := m2
    simp [exGoal] at hx
    obtain ⟨rfl, rfl⟩ := hx
    simp [← hsv, exSVof, alook] at hd
    subst hd
    simp [alook] at hy
    exact ⟨rfl, rfl, rfl, hy.symm⟩
  have known : ∀ b d n y, alook b sv = some (.dict d) → alook n d = some (.vv y) → b = "h" ∧ n = "state" ∧ y = exVar "x" := by
    intro b d n y hd hy
    simp only [← hsv, exSVof, alook] at hd
    split at hd
    · cases hd
    · split at hd
      · cases hd
        simp only [alook] at hy
        split at hy
        · cases hy
          exact ⟨by symm; assumption, by symm; assumption, rfl⟩
        · cases hy
      · cases hd
  refine ⟨fun b c1 c2 n x y m1 m2 => ?_, fun b n x y hm => ?_, fun b n x y v b' c' n' x' hm hv m' hx' hv' => ?_,
    fun b n x y v b' d' n' y' hm hv ht hd hy' hv' => ?_, fun b d n y v u hd hy hv e => ?_, fun b c c2 m1 m2 => ?_⟩
  · simp [← hl2, exTestOf] at m2
    rw [m2.1]
    exact fun _ _ => ⟨exGoal (exVar "x"), by simp [← hr1, exPutIn]⟩
  · obtain ⟨_, _, rfl, rfl⟩ := meet b n x y hm
    simp [exVar]
  · obtain ⟨rfl, rfl, _, _⟩ := meet b n x y hm
    simp [← hl2, exTestOf] at m'
    obtain ⟨rfl, rfl⟩ := m'
    simp [exGoal] at hx'
    exact ⟨rfl, hx'.1⟩
  · obtain ⟨rfl, rfl, _, _⟩ := meet b n x y hm
    obtain ⟨rfl, rfl, _⟩ := known b' d' n' y' hd hy'
    exact ⟨rfl, rfl⟩
  · obtain ⟨_, _, rfl⟩ := known b d n y hd hy
    cases hv
    have := congrArg String.length e
    simp only [String.length_append] at this
    have e1 : ("x").length = 1 := rfl
    have e2 : ("__rule__").length = 8 := rfl
    omega
  · simp [← hr1, exPutIn] at m1
    simp [← hr2, exPutIn] at m2
    rw [m1.1] at m2
    simp at m2

/-- The hypotheses of C67 are met: the first rule copies the value of `g` to `h`, the second one copies that of `h` to `g`. The
compiled rule does both, and it fires. -/
example {H : PyHash} (cf : H.CollisionFree) :
    let l1 := exBoth (exVar "x") (exLit "a"); let r1 := exPutIn "h" (exVar "x")
    let l2 := exTestOf "h" (exVar "y"); let r2 := exPutIn "g" (exVar "y"); let sv := exSVof "h" "g" (exVar "x")
    let rhs : List (Key × RVal) := [(⟨'=', "g"⟩, .chunk (exGoal (exVar "x"))), (⟨'=', "h"⟩, .chunk (exGoal (exVar "x")))]
    RegularPair (exPy H) exCompReg l1 r1 l2 r2 sv DataVal (exTwoFaces "b" "a") ∧ ModifyingRule exCompReg l1 r1 ∧
    ModifyingRule exCompReg l2 r2 ∧ Recorded l1 r1 sv ∧ Furnished l1 r1 l2 r2 (exTwoFaces "b" "a") ∧ AskAlike l1 r1 l2 ∧
    TestAlike exCompReg l1 l2 ∧ FitTogether "r2" l1 r1 l2 r2 sv ∧
    newRule (exPy H) exCompReg "r2" ⟨.ok l1, .ok r1⟩ ⟨.ok l2, .ok r2⟩ sv exCBufs = .ok (some ⟨.ok l1, .ok rhs⟩) ∧
    Fires DataVal l1 rhs (exTwoFaces "b" "a") (exTwoFaces "b" "b") := by
  intro l1 r1 l2 r2 sv rhs
  have vx : ExSlot (exVar "x") := exSlot_var (by decide) (by decide) (by decide)
  have vy : ExSlot (exVar "y") := exSlot_var (by decide) (by decide) (by decide)
  have h1 : ExRule l1 r1 := exBoth_rule vx (exSlot_lit (by decide) (by decide)) vx (by simp) (fun _ h => h)
  have h2 : ExRule l2 r2 := exTestOf_rule vy vy (by simp) (by simp) (fun _ h => h)
  refine ⟨exRule_regular cf h1 h2 (exSVof_fine vx) _ _, exRule_modifying h1, exRule_modifying h2, exSVof_recorded h1 (by decide),
    exRule_furnished h1 h2 _ _, exRule_ask h1, exRule_test h1 h2, exCopies_fit l1, newRule_steps (l2 := exTestOf "h" (exVar "y__rule__r2"))
    (sv' := exSVof "h" "g" (exVar "x")) (st := ⟨[("y__rule__r2", "x"), ("x", "x")], []⟩) (sv'' := exSVof "h" "g" (exVar "x"))
    rfl rfl rfl rfl rfl rfl, exAssign "b" "a" "b" "", exTwo_holds (exAssign_data _ _ _ _) rfl rfl
    (exBoth_says (Or.inr ⟨"x", by decide, rfl, rfl⟩) (Or.inl rfl)), exTwo_modified (fun b c hm => ?_) (by simp) (by simp [rhs])⟩
  · simp [rhs] at hm
    rcases hm with ⟨rfl, rfl⟩ | ⟨rfl, rfl⟩
    · exact Or.inl ⟨rfl, _, rfl, Or.inr ⟨"x", by decide, rfl, rfl⟩⟩
    · exact Or.inr ⟨rfl, _, rfl, Or.inr ⟨"x", by decide, rfl, rfl⟩⟩

end Verif.Props
