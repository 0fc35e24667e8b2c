import Verif.Lemmas.Rules
import Verif.Lemmas.Rounding
import Verif.Lemmas.ChunkDict
import Mathlib.Tactic.Linarith
import Mathlib.Tactic.NormNum
/-! # Properties C28, C29, C33: matching, selecting and rewarding rules -/
namespace Verif.Props
open Verif Verif.Spec

/-! ## C28 -/

/-- The left-hand side of a rule succeeds. -/
def Succeeds (H : PyHash) (bufs : Faces) (lhs : List (Key × LVal)) : Prop := ∃ bv, lhsTest H bufs lhs BV.init = .ok (some bv)

/-- C28 in full: a left-hand side succeeds iff all its conditions hold under one assignment. -/
def C28_full : Prop := ∀ H : PyHash, H.CollisionFree → ∀ D, Domain D → ∀ (bufs : Faces) (lhs : List (Key × LVal)),
  GoodBuffers D bufs lhs → GoodPatterns lhs → (Succeeds H bufs lhs ↔ ∃ σ, RuleHolds D bufs lhs σ)

theorem within_init {D : Val → Prop} {L : List (Key × LVal)} : Within D L BV.init := by
  refine ⟨⟨?_, ?_, ?_⟩, ?_, ?_⟩ <;> intro y v <;> simp [BV.init, BV.get, BV.negGet, alook]

/-- C28 (partial): a left-hand side succeeds iff all its conditions hold under one assignment of values to variables; the
bindings it ends with are such an assignment, and every other one agrees with it. Missing: the names excluded by `SafeNames`
(for negated names of tested buffers see `C28_refuted`), and the restriction to values of a domain (C04). -/
theorem C28_partial {H : PyHash} (cf : H.CollisionFree) {D : Val → Prop} (hD : Domain D) (bufs : Faces) (lhs : List (Key × LVal))
    (hB : GoodBuffers D bufs lhs) (hP : GoodPatterns lhs) (hS : SafeNames lhs) :
    (Succeeds H bufs lhs ↔ ∃ σ, RuleHolds D bufs lhs σ) ∧
    ∀ bv, lhsTest H bufs lhs BV.init = .ok (some bv) → RuleHolds D bufs lhs bv.get ∧
      ∀ σ, RuleHolds D bufs lhs σ → ∀ y v, bv.get y = some v → ∃ w, σ y = some w ∧ SameVal w v := by
  have sound : ∀ bv, lhsTest H bufs lhs BV.init = .ok (some bv) → RuleHolds D bufs lhs bv.get := by
    intro bv h
    obtain ⟨W, _, hc⟩ := lhsTest_sound cf hD hB hP hS lhs (fun _ h => h) BV.init bv within_init h
    exact ⟨W.good.pos, hc⟩
  have compl : ∀ σ, RuleHolds D bufs lhs σ → ∃ bv, lhsTest H bufs lhs BV.init = .ok (some bv) ∧
      ∀ y b, bv.get y = some b → ∃ v, σ y = some v ∧ dkey v = dkey b := by
    intro σ h
    exact lhsTest_complete cf hD hB hP hS h.data lhs (fun _ h => h) h.conds BV.init within_init
      (by intro y b; simp [BV.init, BV.get, alook]) (by intro y v w; simp [BV.init, BV.negGet, alook])
  refine ⟨⟨fun ⟨bv, h⟩ => ⟨_, sound bv h⟩, fun ⟨σ, h⟩ => ?_⟩, ?_⟩
  · obtain ⟨bv, h, _⟩ := compl σ h; exact ⟨bv, h⟩
  · intro bv h
    refine ⟨sound bv h, ?_⟩
    intro σ hσ y v hv
    obtain ⟨bv', h', hk⟩ := compl σ hσ
    rw [h] at h'; cases h'
    obtain ⟨w, hw, hk⟩ := hk y v hv
    exact ⟨w, hw, dkey_sameVal hD (hσ.data y w hw) ((sound bv h).data y v hv) hk⟩

/-- Hence the order of the conditions does not matter (partial: as `C28_partial`). -/
theorem C28_order_partial {H : PyHash} (cf : H.CollisionFree) {D : Val → Prop} (hD : Domain D) (bufs : Faces)
    (lhs lhs' : List (Key × LVal)) (hB : GoodBuffers D bufs lhs) (hP : GoodPatterns lhs) (hS : SafeNames lhs)
    (hp : lhs.Perm lhs') : Succeeds H bufs lhs ↔ Succeeds H bufs lhs' := by
  have hm : ∀ c, c ∈ lhs ↔ c ∈ lhs' := fun c => hp.mem_iff
  have hB' : GoodBuffers D bufs lhs' := ⟨fun n p b d r h => hB.chunk n p b d r ((hm _).mpr h)⟩
  have hP' : GoodPatterns lhs' := fun n p h => hP n p ((hm _).mpr h)
  have ht : ∀ n, Tested lhs n ↔ Tested lhs' n := fun n => by simp [Tested, hm]
  have hv : ∀ n, PosVar lhs n ↔ PosVar lhs' n := fun n => by simp [PosVar, hm]
  have hn : ∀ n, NegVar lhs n ↔ NegVar lhs' n := fun n => by simp [NegVar, hm]
  have hS' : SafeNames lhs' := by
    refine ⟨fun n p m x h => hS.own n p m x ((hm _).mpr h), fun n h => ?_, fun y h => ?_,
      fun n p m x h => hS.noNone n p m x ((hm _).mpr h)⟩
    · rw [← hn]; exact hS.neg n ((ht n).mpr h)
    · have := hS.letters y ((hv y).mpr h)
      simpa only [hv, ht] using this
  rw [(C28_partial cf hD bufs lhs hB hP hS).1, (C28_partial cf hD bufs lhs' hB' hP' hS').1]
  constructor <;> rintro ⟨σ, h⟩ <;> refine ⟨σ, h.data, fun c hc => h.conds c ?_⟩
  · exact (hm c).mpr hc
  · exact (hm c).mp hc

/-- Tests are patterns, queries are dictionaries that ask existing buffers for existing attributes. -/
def WellFormed (bufs : Faces) (lhs : List (Key × LVal)) : Prop :=
  ∀ c ∈ lhs, (∃ n p, c = (⟨'=', n⟩, .chunk p)) ∨
    ∃ n q, c = (⟨'?', n⟩, .dict q) ∧ ∀ a v, (a, v) ∈ q → ∃ f, alook n bufs = some f ∧ (a = "buffer" ∨ ∃ s, alook a f.attrs = some s)

/-- A well-formed left-hand side is tested without an exception: if it does not succeed, it is reported not to match. -/
theorem C28_total (H : PyHash) (bufs : Faces) (lhs : List (Key × LVal)) (h : WellFormed bufs lhs) (bv : BV) :
    ∃ r, lhsTest H bufs lhs bv = .ok r := by
  have hq : ∀ n q, (∀ a v, (a, v) ∈ q → ∃ f, alook n bufs = some f ∧ (a = "buffer" ∨ ∃ s, alook a f.attrs = some s)) →
      ∃ r, queryBuffer (alook n bufs) q = .ok r := by
    intro n q
    induction q with
    | nil => intro _; exact ⟨true, rfl⟩
    | cons x r ih =>
      obtain ⟨a, v⟩ := x
      intro h
      obtain ⟨f, hf, hs⟩ := h a v (by simp)
      obtain ⟨b, hb⟩ := ih (fun a' v' h' => h a' v' (by simp [h']))
      simp only [queryBuffer]
      rw [hb, hf]
      by_cases ha : a = "buffer"
      · simp only [ha, if_true]
        split <;> exact ⟨_, rfl⟩
      · rcases hs with hs | ⟨s, hs⟩
        · exact absurd hs ha
        · simp only [ha, if_false, hs]
          split <;> exact ⟨_, rfl⟩
  induction lhs generalizing bv with
  | nil => exact ⟨some bv, rfl⟩
  | cons c r ih =>
    have ih' := ih (fun c hc => h c (by simp [hc]))
    rcases h c (by simp) with ⟨n, p, rfl⟩ | ⟨n, q, rfl, hqq⟩
    · simp only [lhsTest, testCond, if_true]
      cases testBuffer H bufs n p bv with
      | none => exact ⟨_, rfl⟩
      | some bv' => exact ih' bv'
    · obtain ⟨b, hb⟩ := hq n q hqq
      simp only [lhsTest, testCond, hb]
      cases b with
      | true => exact ih' bv
      | false => exact ⟨_, rfl⟩

/-- A goal `f(a=1)`, a buffer `h` whose chunk has a chunk like the goal in its slot, and a rule asking that it be different. -/
def exBufs : Faces :=
  [("h", ⟨[⟨"f", [("a", .vv ⟨.chunk "f" [("b", pv "1")], Option.none, [], []⟩)]⟩], [("state", "free")]⟩),
   ("g", ⟨[⟨"f", [("b", pv "1")]⟩], [("state", "free")]⟩)]

def exNegLhs : List (Key × LVal) :=
  [(⟨'=', "h"⟩, .chunk ⟨"f", [("a", .vv ⟨.none, Option.none, [], ["g"]⟩)]⟩), (⟨'=', "g"⟩, .chunk ⟨"f", []⟩)]

theorem exNeg_succeeds (H : PyHash) : Succeeds H exBufs exNegLhs := by
  have h1 : ∃ bv, testBuffer H exBufs "h" ⟨"f", [("a", .vv ⟨.none, Option.none, [], ["g"]⟩)]⟩ BV.init = some bv ∧
      bv.get "g" = Option.none := by
    cases hle : (⟨"f", [("a", .vv ⟨.none, Option.none, [], ["g"]⟩)]⟩ : Chunk).le H BV.init
        ⟨"f", [("a", .vv ⟨.chunk "f" [("b", pv "1")], Option.none, [], []⟩)]⟩ with
    | mk ok bv1 =>
      have hok : ok = true := by
        have := (le_fst_iff (H := H) (bv := BV.init) (p := ⟨"f", [("a", .vv ⟨.none, Option.none, [], ["g"]⟩)]⟩)
          (d := ⟨"f", [("a", .vv ⟨.chunk "f" [("b", pv "1")], Option.none, [], []⟩)]⟩)).mpr (Or.inr (by
            refine ⟨?_, trivial⟩
            constructor <;> simp [splitting, BV.init, BV.get, alook, afterVar, Val.truthy]))
        rw [hle] at this; exact this
      subst hok
      refine ⟨bv1.bind "h" _, testBuffer_some.mpr ⟨_, _, [], bv1, rfl, rfl, ?_, hle, rfl⟩, ?_⟩
      · intro v; simp [BV.init, BV.get, alook]
      · rw [get_bind]
        simp only [String.reduceEq, if_false]
        rcases (le_true_iff ..).mp hle with ⟨_, rfl⟩ | ⟨_, _, rfl⟩
        · rfl
        · simp only [afterSlots, List.foldl_cons, List.foldl_nil, afterSlot, afterNeg_get]; rfl
  obtain ⟨bv, hbv, hg⟩ := h1
  have h2 : ∃ bv', testBuffer H exBufs "g" ⟨"f", []⟩ bv = some bv' := by
    cases hle : (⟨"f", []⟩ : Chunk).le H bv ⟨"f", [("b", pv "1")]⟩ with
    | mk ok bv1 =>
      have hok : ok = true := by
        have := (le_fst_iff (H := H) (bv := bv) (p := ⟨"f", []⟩) (d := ⟨"f", [("b", pv "1")]⟩)).mpr (Or.inr trivial)
        rw [hle] at this; exact this
      subst hok
      exact ⟨_, testBuffer_some.mpr ⟨_, _, [], bv1, rfl, rfl, by simp [hg], hle, rfl⟩⟩
  obtain ⟨bv', hbv'⟩ := h2
  exact ⟨bv', by simp [exNegLhs, lhsTest, testCond, hbv, hbv']⟩

theorem exNeg_not (D : Val → Prop) (σ : String → Option Val) : ¬ RuleHolds D exBufs exNegLhs σ := by
  intro h
  have h1 := h.conds _ (List.mem_cons_self ..)
  have h2 := h.conds (⟨'=', "g"⟩, .chunk ⟨"f", []⟩) (by simp [exNegLhs])
  cases h2 with
  | test hb hd _ hn =>
    simp only [exBufs, alook, String.reduceEq, if_false, if_true, Option.some.injEq] at hb
    subst hb
    simp only [List.cons.injEq] at hd
    obtain ⟨rfl, _⟩ := hd
    obtain ⟨v, hv, hs⟩ := hn
    cases h1 with
    | test hb' hd' hc _ =>
      simp only [exBufs, alook, if_true, Option.some.injEq] at hb'
      subst hb'
      simp only [List.cons.injEq] at hd'
      obtain ⟨rfl, _⟩ := hd'
      exact hc.neg "a" ⟨.none, Option.none, [], ["g"]⟩ "g" _ v (by simp) (by simp)
        (.val (x := ⟨.chunk "f" [("b", pv "1")], Option.none, [], []⟩) (by simp)) hv hs

/-- C28 fails in full: a negated variable with the name of a buffer tested later is not compared with the content of that
buffer. -/
theorem C28_refuted : ¬ C28_full := by
  intro hall
  obtain ⟨H, cf⟩ := exists_collisionFree
  have h := hall H cf DataVal dataDomain exBufs exNegLhs ⟨?_⟩ ?_
  · obtain ⟨σ, hσ⟩ := h.mp (exNeg_succeeds H)
    exact exNeg_not _ σ hσ
  · intro n p b d r hm hb hd
    simp only [exNegLhs, List.mem_cons, Prod.mk.injEq, Key.mk.injEq, true_and, LVal.chunk.injEq, List.not_mem_nil, or_false] at hm
    rcases hm with ⟨rfl, rfl⟩ | ⟨rfl, rfl⟩
    · simp only [exBufs, alook, if_true, Option.some.injEq] at hb
      subst hb
      simp only [List.cons.injEq] at hd
      obtain ⟨rfl, _⟩ := hd
      have hdata : DataChunk ⟨"f", [("a", .vv ⟨.chunk "f" [("b", pv "1")], Option.none, [], []⟩)]⟩ :=
        ⟨by simp [Plain, PlainSlots, PlainSlot, PlainVal], by simp [Named], by
          intro n x h; simp at h; rcases h with ⟨_, rfl⟩; simp⟩
      refine ⟨hdata.plain, hdata.named, dataChunk_inDomain hdata ?_, ?_, ?_⟩
      · intro n s h; simp at h; rcases h with ⟨rfl, rfl⟩; simp
      · intro n x w h hx; simp at h; rcases h with ⟨rfl, rfl⟩; simp at hx
      · exact ⟨by simp [Chunk.val, PlainSlots, PlainSlot, PlainVal], by simp [Chunk.val]⟩
    · simp only [exBufs, alook, String.reduceEq, if_false, if_true, Option.some.injEq] at hb
      subst hb
      simp only [List.cons.injEq] at hd
      obtain ⟨rfl, _⟩ := hd
      refine ⟨by simp [Plain, PlainSlots, PlainSlot, PlainVal], by simp [Named], ?_, ?_, ?_⟩
      · intro n s w h; simp at h
      · intro n x w h; simp at h
      · exact ⟨by simp [Chunk.val, PlainSlots, PlainSlot, PlainVal], by simp [Chunk.val]⟩
  · intro n p hm
    simp only [exNegLhs, List.mem_cons, Prod.mk.injEq, Key.mk.injEq, true_and, LVal.chunk.injEq, List.not_mem_nil, or_false] at hm
    rcases hm with ⟨rfl, rfl⟩ | ⟨rfl, rfl⟩
    · refine ⟨by simp [Named], ?_⟩
      intro n x h; simp at h; rcases h with ⟨_, rfl⟩; simp [PlainVal]
    · refine ⟨by simp [Named], ?_⟩
      intro n x h; simp at h

/-- The same buffers and a rule that asks for the chunk of the goal, by the name of the buffer, and queries a state. -/
def exLhs : List (Key × LVal) :=
  [(⟨'=', "h"⟩, .chunk ⟨"f", [("a", pvar "g")]⟩), (⟨'?', "h"⟩, .dict [("state", "free"), ("buffer", "full")]),
   (⟨'=', "g"⟩, .chunk ⟨"f", [("b", pvar "x")]⟩)]

/-- The hypotheses of C28 are met by this rule, which holds. -/
example : GoodBuffers DataVal exBufs exLhs ∧ GoodPatterns exLhs ∧ SafeNames exLhs ∧ WellFormed exBufs exLhs ∧
    RuleHolds DataVal exBufs exLhs (fun y => if y = "x" then some (.str "1") else if y = "g" then some (.chunk "f" [("b", pv "1")])
      else if y = "h" then some (.chunk "f" [("a", .vv ⟨.chunk "f" [("b", pv "1")], Option.none, [], []⟩)]) else Option.none) := by
  have hmem : ∀ n p, ((⟨'=', n⟩ : Key), LVal.chunk p) ∈ exLhs →
      (n = "h" ∧ p = ⟨"f", [("a", pvar "g")]⟩) ∨ (n = "g" ∧ p = ⟨"f", [("b", pvar "x")]⟩) := by
    intro n p h; simpa [exLhs] using h
  have d1 : DataChunk ⟨"f", [("a", .vv ⟨.chunk "f" [("b", pv "1")], Option.none, [], []⟩)]⟩ :=
    ⟨by simp [Plain, PlainSlots, PlainSlot, PlainVal], by simp [Named], by
      intro n x h; simp at h; rcases h with ⟨_, rfl⟩; simp⟩
  have d2 : DataChunk ⟨"f", [("b", pv "1")]⟩ :=
    ⟨by simp [Plain, PlainSlots, PlainSlot, PlainVal], by simp [Named], by
      intro n x h; simp at h; rcases h with ⟨_, rfl⟩; simp⟩
  refine ⟨⟨?_⟩, ?_, ⟨?_, ?_, ?_, ?_⟩, ?_, ⟨?_, ?_⟩⟩
  · intro n p b d r hm hb hd
    rcases hmem n p hm with ⟨rfl, rfl⟩ | ⟨rfl, rfl⟩
    · simp only [exBufs, alook, if_true, Option.some.injEq] at hb
      subst hb
      simp only [List.cons.injEq] at hd
      obtain ⟨rfl, _⟩ := hd
      refine ⟨d1.plain, d1.named, dataChunk_inDomain d1 ?_, ?_, ?_⟩
      · intro n s h; simp at h; rcases h with ⟨rfl, rfl⟩; simp
      · intro n x w h hx; simp at h; rcases h with ⟨rfl, rfl⟩; simp at hx
      · exact ⟨by simp [Chunk.val, PlainSlots, PlainSlot, PlainVal], by simp [Chunk.val]⟩
    · simp only [exBufs, alook, String.reduceEq, if_false, if_true, Option.some.injEq] at hb
      subst hb
      simp only [List.cons.injEq] at hd
      obtain ⟨rfl, _⟩ := hd
      refine ⟨d2.plain, d2.named, dataChunk_inDomain d2 ?_, ?_, ?_⟩
      · intro n s h; simp at h; rcases h with ⟨rfl, rfl⟩; simp
      · intro n x w h hx; simp at h; rcases h with ⟨rfl, rfl⟩; simp at hx
      · exact ⟨by simp [Chunk.val, PlainSlots, PlainSlot, PlainVal], by simp [Chunk.val]⟩
  · intro n p hm
    rcases hmem n p hm with ⟨rfl, rfl⟩ | ⟨rfl, rfl⟩ <;> refine ⟨by simp [Named], ?_⟩ <;> intro n x h <;> simp at h <;>
      rcases h with ⟨_, rfl⟩ <;> simp [PlainVal]
  · intro n p m x hm hx
    rcases hmem n p hm with ⟨rfl, rfl⟩ | ⟨rfl, rfl⟩ <;> simp at hx <;> rcases hx with ⟨_, rfl⟩ <;> simp
  · rintro n _ ⟨k, p, m, x, hm, hx, hy⟩
    rcases hmem k p hm with ⟨rfl, rfl⟩ | ⟨rfl, rfl⟩ <;> simp at hx <;> rcases hx with ⟨_, rfl⟩ <;> simp at hy
  · rintro y ⟨k, p, m, x, hm, hx, hy⟩
    rcases hmem k p hm with ⟨rfl, rfl⟩ | ⟨rfl, rfl⟩ <;> simp at hx <;> rcases hx with ⟨_, rfl⟩ <;> simp at hy <;> subst hy
    · exact Or.inl ⟨'g', by decide⟩
    · exact Or.inl ⟨'x', by decide⟩
  · intro n p m x hm hx hv
    rcases hmem n p hm with ⟨rfl, rfl⟩ | ⟨rfl, rfl⟩ <;> simp at hx <;> rcases hx with ⟨_, rfl⟩ <;> simp at hv
  · intro c hc
    simp only [exLhs, List.mem_cons, List.not_mem_nil, or_false] at hc
    rcases hc with rfl | rfl | rfl
    · exact Or.inl ⟨_, _, rfl⟩
    · refine Or.inr ⟨_, _, rfl, ?_⟩
      intro a v h
      simp at h
      rcases h with ⟨rfl, rfl⟩ | ⟨rfl, rfl⟩ <;> exact ⟨_, rfl, by simp [alook]⟩
    · exact Or.inl ⟨_, _, rfl⟩
  · intro y v h
    split at h
    · cases h; exact ⟨by simp [PlainVal], by simp⟩
    · split at h
      · cases h; exact ⟨by simp [PlainSlots, PlainSlot, PlainVal], by simp⟩
      · split at h
        · cases h; exact ⟨by simp [PlainSlots, PlainSlot, PlainVal], by simp⟩
        · cases h
  · intro c hc
    simp only [exLhs, List.mem_cons, List.not_mem_nil, or_false] at hc
    rcases hc with rfl | rfl | rfl
    · refine .test (b := ⟨_, _⟩) rfl rfl ⟨?_, ?_, ?_⟩ ⟨_, rfl, ?_⟩
      · intro n x y w h hy _ hw
        rw [(slotHas_iff d1.named n w).mp hw]
        simp at h; rcases h with ⟨rfl, rfl⟩; simp at hy; subst hy
        exact ⟨_, rfl, by simp [matchingVal, alook, SameVal]⟩
      · intro n x y w v h hy
        simp at h; rcases h with ⟨rfl, rfl⟩; simp at hy
      · intro n x w h hw
        simp at h; rcases h with ⟨rfl, rfl⟩; simp [Accepts, NoRequirement]
      · simp [SameVal, Chunk.val]
    · refine .query ?_
      intro a v h
      simp at h
      rcases h with ⟨rfl, rfl⟩ | ⟨rfl, rfl⟩ <;> exact ⟨_, rfl, by simp [QueryHolds, alook]⟩
    · refine .test (b := ⟨_, _⟩) rfl rfl ⟨?_, ?_, ?_⟩ ⟨_, rfl, ?_⟩
      · intro n x y w h hy _ hw
        rw [(slotHas_iff d2.named n w).mp hw]
        simp at h; rcases h with ⟨rfl, rfl⟩; simp at hy; subst hy
        exact ⟨_, rfl, by simp [matchingVal, alook, SameVal]⟩
      · intro n x y w v h hy
        simp at h; rcases h with ⟨rfl, rfl⟩; simp at hy
      · intro n x w h hw
        simp at h; rcases h with ⟨rfl, rfl⟩; simp [Accepts, NoRequirement]
      · simp [SameVal, Chunk.val]

/-! ## C29 -/

/-- A rule of the given name exists and its left-hand side succeeds. -/
def Matches (H : PyHash) (bufs : Faces) (rules : Rules) (name : String) : Prop :=
  ∃ r, alook name rules = some r ∧ Succeeds H bufs r.lhs

/-- Utilities after a sequence of updates, each with the time of the reward, the reward and the record of used rules. -/
def updated (alpha : ℚ) (h : List (ℚ × ℚ × Used)) (rules : Rules) : Rules :=
  h.foldl (fun rs x => modifyUtilities alpha x.1 x.2.1 x.2.2 rs) rules

/-- C29 in full: whatever utilities have become, the rule selected is a best one of those that match, and one is selected if any
matches. -/
def C29_full : Prop := ∀ (H : PyHash) (bufs : Faces) (p : UParams) (rules : Rules) (h : List (ℚ × ℚ × Used)) (draws : ℕ → ℚ)
  (r : Option (String × ℚ)), (rules.map Prod.fst).Nodup →
  conflictResolution H bufs p (updated p.alpha h rules) (orderedNames rules) draws = .ok r →
  (r = Option.none ↔ ∀ n ∈ orderedNames rules, ¬ Matches H bufs (updated p.alpha h rules) n) ∧
  ∀ n u, r = some (n, u) → BestRule (Matches H bufs (updated p.alpha h rules))
    (noisyUtility p.noisy (updated p.alpha h rules) draws) (orderedNames rules) n u

theorem utilityOf_some {rules : Rules} {n : String} {r : Rule} (h : alook n rules = some r) : utilityOf rules n = r.utility := by
  simp [utilityOf, h]

theorem matches_some {H : PyHash} {bufs : Faces} {rules : Rules} {n : String} {r : Rule} (h : alook n rules = some r) :
    Matches H bufs rules n ↔ Succeeds H bufs r.lhs := by
  simp [Matches, h]

/-- With noise on, the loop finds a best rule (the last one). -/
theorem selectLoop_noise (H : PyHash) (bufs : Faces) (p : UParams) (rules : Rules) (draws : ℕ → ℚ) (hs : p.noisy = true) :
    ∀ (l : List String) (k : ℕ) (best r : Option (String × ℚ)), selectLoop H bufs p rules draws k l best = .ok r →
    (r = Option.none ↔ best = Option.none ∧ ∀ n ∈ l, ¬ Matches H bufs rules n) ∧
    ∀ n u, r = some (n, u) →
      (best = some (n, u) ∨ ∃ i, l[i]? = some n ∧ Matches H bufs rules n ∧ u = utilityOf rules n + draws (k + i)) ∧
      (∀ i m, l[i]? = some m → Matches H bufs rules m → utilityOf rules m + draws (k + i) ≤ u) ∧
      (∀ m v, best = some (m, v) → v ≤ u) := by
  simp only [UParams.noisy, Bool.and_eq_true, Bool.not_eq_true', decide_eq_false_iff_not] at hs
  intro l
  induction l with
  | nil =>
    intro k best r h
    simp only [selectLoop, Except.ok.injEq] at h
    subst h
    refine ⟨by simp, fun n u h => ⟨Or.inl h, by simp, ?_⟩⟩
    intro m v hm; rw [h] at hm; cases hm; exact le_refl _
  | cons a l ih =>
    intro k best r h
    simp only [selectLoop] at h
    cases ha : alook a rules with
    | none => rw [ha] at h; cases h
    | some rule =>
      rw [ha] at h
      simp only [utilityDraw, hs.1, if_true, hs.2, if_false] at h
      by_cases hneg : p.utilityNoise < 0
      · simp [hneg] at h
      · simp only [hneg, if_false] at h
        -- the rule is not taken: it does not match, or its utility is below that of the best one
        have skip : selectLoop H bufs p rules draws (k + 1) l best = .ok r →
            (¬ Matches H bufs rules a ∨ ∃ m v, best = some (m, v) ∧ rule.utility + draws k ≤ v) →
            (r = Option.none ↔ best = Option.none ∧ ∀ n ∈ a :: l, ¬ Matches H bufs rules n) ∧
            ∀ n u, r = some (n, u) →
              (best = some (n, u) ∨ ∃ i, (a :: l)[i]? = some n ∧ Matches H bufs rules n ∧ u = utilityOf rules n + draws (k + i)) ∧
              (∀ i m, (a :: l)[i]? = some m → Matches H bufs rules m → utilityOf rules m + draws (k + i) ≤ u) ∧
              (∀ m v, best = some (m, v) → v ≤ u) := by
          intro h hcase
          obtain ⟨h1, h2⟩ := ih (k + 1) best r h
          constructor
          · rw [h1]
            constructor
            · rintro ⟨hb, hn⟩
              refine ⟨hb, fun n hn' => ?_⟩
              rcases List.mem_cons.mp hn' with rfl | hn'
              · rcases hcase with hc | ⟨m, v, hb', _⟩
                · exact hc
                · rw [hb] at hb'; cases hb'
              · exact hn n hn'
            · rintro ⟨hb, hn⟩; exact ⟨hb, fun n hn' => hn n (by simp [hn'])⟩
          · intro n u hr
            obtain ⟨g1, g2, g3⟩ := h2 n u hr
            refine ⟨?_, ?_, g3⟩
            · rcases g1 with g1 | ⟨i, g4, g5, g6⟩
              · exact Or.inl g1
              · exact Or.inr ⟨i + 1, by simpa using g4, g5, by rw [g6]; congr 2; omega⟩
            · intro i m hi hm
              cases i with
              | zero =>
                simp only [List.getElem?_cons_zero, Option.some.injEq] at hi
                subst hi
                rcases hcase with hc | ⟨m', v, hb', hv⟩
                · exact absurd hm hc
                · rw [utilityOf_some ha]; exact le_trans hv (g3 m' v hb')
              | succ i =>
                have := g2 i m (by simpa using hi) hm
                rw [show k + (i + 1) = k + 1 + i by omega]; exact this
        have test : (∀ m v, best = some (m, v) → v ≤ rule.utility + draws k) →
            (∀ e, lhsTest H bufs rule.lhs BV.init ≠ .error e) →
            (lhsTest H bufs rule.lhs BV.init = .ok Option.none → selectLoop H bufs p rules draws (k + 1) l best = .ok r) →
            (∀ bv, lhsTest H bufs rule.lhs BV.init = .ok (some bv) →
              selectLoop H bufs p rules draws (k + 1) l (some (a, rule.utility + draws k)) = .ok r) →
            (r = Option.none ↔ best = Option.none ∧ ∀ n ∈ a :: l, ¬ Matches H bufs rules n) ∧
            ∀ n u, r = some (n, u) →
              (best = some (n, u) ∨ ∃ i, (a :: l)[i]? = some n ∧ Matches H bufs rules n ∧ u = utilityOf rules n + draws (k + i)) ∧
              (∀ i m, (a :: l)[i]? = some m → Matches H bufs rules m → utilityOf rules m + draws (k + i) ≤ u) ∧
              (∀ m v, best = some (m, v) → v ≤ u) := by
          intro hbest he hn hsome
          cases hl : lhsTest H bufs rule.lhs BV.init with
          | error e => exact absurd hl (he e)
          | ok o =>
            cases o with
            | none => exact skip (hn hl) (Or.inl (by rw [matches_some ha]; rintro ⟨bv, hbv⟩; rw [hl] at hbv; cases hbv))
            | some bv =>
              have hM : Matches H bufs rules a := (matches_some ha).mpr ⟨bv, hl⟩
              obtain ⟨h1, h2⟩ := ih (k + 1) _ r (hsome bv hl)
              constructor
              · rw [h1]
                simp only [reduceCtorEq, false_and, false_iff, not_and, not_forall, not_not]
                intro _; exact ⟨a, by simp, hM⟩
              · intro n u hr
                obtain ⟨g1, g2, g3⟩ := h2 n u hr
                have hu : rule.utility + draws k ≤ u := g3 a _ rfl
                refine ⟨?_, ?_, fun m v hm => le_trans (hbest m v hm) hu⟩
                · rcases g1 with g1 | ⟨i, g4, g5, g6⟩
                  · simp only [Option.some.injEq, Prod.mk.injEq] at g1
                    obtain ⟨rfl, rfl⟩ := g1
                    exact Or.inr ⟨0, by simp, hM, by rw [utilityOf_some ha]; rfl⟩
                  · exact Or.inr ⟨i + 1, by simpa using g4, g5, by rw [g6]; congr 2; omega⟩
                · intro i m hi hm
                  cases i with
                  | zero =>
                    simp only [List.getElem?_cons_zero, Option.some.injEq] at hi
                    subst hi
                    rw [utilityOf_some ha]; exact hu
                  | succ i =>
                    have := g2 i m (by simpa using hi) hm
                    rw [show k + (i + 1) = k + 1 + i by omega]; exact this
        cases best with
        | none => exact test (by simp) (by intro e he; simp [he] at h) (by intro he; simpa [he] using h) (by intro bv he; simpa [he, hs.1, hs.2] using h)
        | some b =>
          obtain ⟨bn, bu⟩ := b
          by_cases hlt : rule.utility + draws k < bu
          · simp only [hlt, decide_true, if_true] at h
            exact skip h (Or.inr ⟨bn, bu, rfl, le_of_lt hlt⟩)
          · simp only [hlt, decide_false, Bool.false_eq_true, if_false] at h
            exact test (by intro m v hm; cases hm; exact not_lt.mp hlt)
              (by intro e he; simp [he] at h) (by intro he; simpa [he] using h) (by intro bv he; simpa [he, hs.1, hs.2] using h)

/-- Without noise, the loop finds the first matching rule of the list. -/
theorem selectLoop_first (H : PyHash) (bufs : Faces) (p : UParams) (rules : Rules) (draws : ℕ → ℚ) (hs : p.noisy = false) :
    ∀ (l : List String) (k : ℕ) (r : Option (String × ℚ)), selectLoop H bufs p rules draws k l Option.none = .ok r →
    (r = Option.none ↔ ∀ n ∈ l, ¬ Matches H bufs rules n) ∧
    ∀ n u, r = some (n, u) → ∃ i : ℕ, l[i]? = some n ∧ Matches H bufs rules n ∧ u = utilityOf rules n ∧
      ∀ (j : ℕ) m, j < i → l[j]? = some m → ¬ Matches H bufs rules m := by
  intro l
  induction l with
  | nil =>
    intro k r h
    simp only [selectLoop, Except.ok.injEq] at h
    subst h; simp
  | cons a l ih =>
    intro k r h
    simp only [selectLoop] at h
    cases ha : alook a rules with
    | none => rw [ha] at h; cases h
    | some rule =>
      rw [ha] at h
      have hd : ∀ nz, utilityDraw p (draws k) = .ok nz → nz = 0 := by
        intro nz hnz
        unfold utilityDraw at hnz
        simp only [UParams.noisy, Bool.and_eq_false_iff, Bool.not_eq_false', decide_eq_true_eq] at hs
        rcases hs with hs | hs
        · simp [hs] at hnz; exact hnz.symm
        · simp [hs] at hnz; exact hnz.symm
      cases hdr : utilityDraw p (draws k) with
      | error e => rw [hdr] at h; cases h
      | ok nz =>
        rw [hdr] at h
        have := hd nz hdr
        subst this
        simp only [Bool.false_eq_true, if_false, add_zero] at h
        cases hl : lhsTest H bufs rule.lhs BV.init with
        | error e => rw [hl] at h; cases h
        | ok o =>
          rw [hl] at h
          cases o with
          | none =>
            have hM : ¬ Matches H bufs rules a := by rw [matches_some ha]; rintro ⟨bv, hbv⟩; rw [hl] at hbv; cases hbv
            obtain ⟨h1, h2⟩ := ih (k + 1) r h
            constructor
            · rw [h1]; simp [hM]
            · intro n u hr
              obtain ⟨i, g1, g2, g3, g4⟩ := h2 n u hr
              refine ⟨i + 1, by simpa using g1, g2, g3, ?_⟩
              intro j m hj hm
              cases j with
              | zero => simp only [List.getElem?_cons_zero, Option.some.injEq] at hm; subst hm; exact hM
              | succ j => exact g4 j m (by omega) (by simpa using hm)
          | some bv =>
            have hM : Matches H bufs rules a := (matches_some ha).mpr ⟨bv, hl⟩
            have hb : (!p.subsymbolic || decide (p.utilityNoise = 0)) = true := by
              revert hs; simp only [UParams.noisy]
              cases p.subsymbolic <;> simp
            simp only [hb, if_true, Except.ok.injEq] at h
            subst h
            constructor
            · simp only [reduceCtorEq, false_iff, not_forall, not_not]; exact ⟨a, by simp, hM⟩
            · intro n u hr
              cases hr
              exact ⟨0, by simp, hM, (utilityOf_some ha).symm, by simp⟩

/-- C29 (partial): a rule is selected if any of the list matches; with noise it is one with the highest noisy utility among
those that match; without noise it is if the list is still in the order of the utilities. Missing: without noise, when utility
learning has changed the order (see `C29_refuted`). -/
theorem C29_partial (H : PyHash) (bufs : Faces) (p : UParams) (rules : Rules) (names : List String) (draws : ℕ → ℚ)
    (r : Option (String × ℚ)) (hsort : p.noisy = false → names.Pairwise (fun a b => utilityOf rules b ≤ utilityOf rules a))
    (h : conflictResolution H bufs p rules names draws = .ok r) :
    (r = Option.none ↔ ∀ n ∈ names, ¬ Matches H bufs rules n) ∧
    ∀ n u, r = some (n, u) → BestRule (Matches H bufs rules) (noisyUtility p.noisy rules draws) names n u := by
  cases hs : p.noisy with
  | true =>
    obtain ⟨h1, h2⟩ := selectLoop_noise H bufs p rules draws hs names 0 _ _ h
    refine ⟨by simpa using h1, ?_⟩
    intro n u hr
    obtain ⟨g1, g2, _⟩ := h2 n u hr
    simp only [reduceCtorEq, false_or, zero_add] at g1
    obtain ⟨i, g3, g4, g5⟩ := g1
    exact ⟨⟨i, g3, g4, by simpa [noisyUtility] using g5⟩, fun j m hj hm => by simpa [noisyUtility] using g2 j m hj hm⟩
  | false =>
    obtain ⟨h1, h2⟩ := selectLoop_first H bufs p rules draws hs names 0 _ h
    refine ⟨h1, ?_⟩
    intro n u hr
    obtain ⟨i, g1, g2, g3, g4⟩ := h2 n u hr
    refine ⟨⟨i, g1, g2, by simp [noisyUtility, g3]⟩, ?_⟩
    intro j m hj hm
    simp only [noisyUtility, Bool.false_eq_true, if_false, add_zero, g3]
    rcases lt_trichotomy j i with hlt | rfl | hgt
    · exact absurd hm (g4 j m hlt hj)
    · rw [g1] at hj; cases hj; exact le_refl _
    · obtain ⟨hi', hi⟩ := List.getElem?_eq_some_iff.mp g1
      obtain ⟨hj', hj⟩ := List.getElem?_eq_some_iff.mp hj
      have := List.pairwise_iff_getElem.mp (hsort hs) i j hi' hj' hgt
      rw [hi, hj] at this; exact this

/-- Without noise the first matching rule of the list is selected, whatever its utility. -/
theorem C29_first (H : PyHash) (bufs : Faces) (p : UParams) (rules : Rules) (names : List String) (draws : ℕ → ℚ)
    (n : String) (u : ℚ) (hs : p.noisy = false) (h : conflictResolution H bufs p rules names draws = .ok (some (n, u))) :
    ∃ i : ℕ, names[i]? = some n ∧ Matches H bufs rules n ∧ u = utilityOf rules n ∧
      ∀ (j : ℕ) m, j < i → names[j]? = some m → ¬ Matches H bufs rules m :=
  (selectLoop_first H bufs p rules draws hs names 0 _ h).2 n u rfl

/-- The list made when the simulation starts has all rules, in the order of their utilities. -/
theorem C29_initial (rules : Rules) (hn : (rules.map Prod.fst).Nodup) :
    (orderedNames rules).Perm (rules.map Prod.fst) ∧
    (orderedNames rules).Pairwise (fun a b => utilityOf rules b ≤ utilityOf rules a) := by
  have hperm : (rules.mergeSort (fun a b => decide (b.2.utility ≤ a.2.utility))).Perm rules := List.mergeSort_perm ..
  refine ⟨hperm.map _, ?_⟩
  have hp := List.pairwise_mergeSort (le := fun a b : String × Rule => decide (b.2.utility ≤ a.2.utility))
    (by intro a b c h1 h2; simp only [decide_eq_true_eq] at *; exact le_trans h2 h1)
    (by intro a b; simp only [Bool.or_eq_true, decide_eq_true_eq]; exact le_total _ _) rules
  rw [orderedNames, List.pairwise_map]
  refine List.Pairwise.imp_of_mem ?_ hp
  intro a b ha hb h
  rw [utilityOf_some (alook_of_mem hn (hperm.mem_iff.mp ha)), utilityOf_some (alook_of_mem hn (hperm.mem_iff.mp hb))]
  simpa using h

/-- Two rules without conditions; the first one was used and got no reward. -/
def exRules : Rules := [("a", ⟨[], [], 5, Option.none⟩), ("b", ⟨[], [], 4, Option.none⟩)]

/-- C29 fails in full: after learning, the rule that was best at the start is still selected. -/
theorem C29_refuted : ¬ C29_full := by
  intro hall
  have ho : orderedNames exRules = ["a", "b"] := by
    simp [orderedNames, exRules, List.mergeSort, List.MergeSort.Internal.splitInTwo, List.merge]
    norm_num
  have hl : learn (1 / 2) 0 0 0 5 = 5 / 2 := by
    have := round4_of_int 25000
    norm_num at this
    norm_num [learn, this]
  have hu : updated (1 / 2) [(0, 0, [("a", [0])])] exRules = [("a", ⟨[], [], 5 / 2, Option.none⟩), ("b", ⟨[], [], 4, Option.none⟩)] := by
    simp [updated, modifyUtilities, setUtility, exRules, alook, aset]
    simpa using hl
  obtain ⟨H, _⟩ := exists_collisionFree
  have h := (hall H [] ⟨true, 0, true, 1 / 2⟩ exRules [(0, 0, [("a", [0])])] (fun _ => 0) (some ("a", 5 / 2)) (by simp [exRules])
    (by rw [hu, ho]; simp [conflictResolution, selectLoop, alook, utilityDraw, lhsTest])).2 "a" (5 / 2) rfl
  rw [hu, ho] at h
  have := h.2 1 "b" rfl ⟨_, rfl, BV.init, rfl⟩
  simp [noisyUtility, UParams.noisy, utilityOf, alook] at this
  norm_num at this

/-- The hypotheses of C29 are met with and without noise. -/
example (H : PyHash) : conflictResolution H [] ⟨true, 1, true, 1 / 2⟩ exRules (orderedNames exRules) (fun i => 2 * i) =
      .ok (some ("b", 6)) ∧
    conflictResolution H [] ⟨false, 1, true, 1 / 2⟩ exRules (orderedNames exRules) (fun i => 2 * i) = .ok (some ("a", 5)) := by
  have ho : orderedNames exRules = ["a", "b"] := by
    simp [orderedNames, exRules, List.mergeSort, List.MergeSort.Internal.splitInTwo, List.merge]
    norm_num
  rw [ho]
  constructor
  · simp [conflictResolution, selectLoop, alook, utilityDraw, lhsTest, exRules]; norm_num
  · simp [conflictResolution, selectLoop, alook, utilityDraw, lhsTest, exRules]

/-! ## C33 -/

theorem setUtility_alook (name n : String) (f : ℚ → ℚ) (rules : Rules) :
    alook n (setUtility name f rules) =
      if n = name then (alook n rules).map (fun r => { r with utility := f r.utility }) else alook n rules := by
  unfold setUtility
  cases h : alook name rules with
  | none =>
    simp only
    split
    · next e => subst e; rw [h]; rfl
    · rfl
  | some r =>
    simp only [alook_aset]
    split
    · next e => subst e; rw [h]; rfl
    · rfl

theorem setUtility_keys (name : String) (f : ℚ → ℚ) (rules : Rules) :
    (setUtility name f rules).map Prod.fst = rules.map Prod.fst := by
  unfold setUtility
  cases h : alook name rules with
  | none => rfl
  | some r =>
    simp only [keys_aset]
    rw [if_pos]
    exact List.mem_map.mpr ⟨_, alook_mem h, rfl⟩

theorem learnSteps_exist (alpha r now : ℚ) (l : List ℚ) :
    ∀ u, LearnSteps alpha r now l u (l.foldl (fun u t => learn alpha r now t u) u) := by
  induction l with
  | nil => intro u; exact .nil u
  | cons t l ih =>
    intro u
    refine .cons (v := learn alpha r now t u) ?_ (ih _)
    unfold LearnStep
    rw [show (1 - alpha) * u + alpha * (r - (now - t)) = u + alpha * (r - (now - t) - u) by ring]
    exact round4_isRounded _

theorem inner_alook (alpha r now : ℚ) (name n : String) (l : List ℚ) : ∀ rules : Rules,
    alook n (l.foldl (fun rs t => setUtility name (learn alpha r now t) rs) rules) =
      if n = name then (alook n rules).map (fun x => { x with utility := l.foldl (fun u t => learn alpha r now t u) x.utility })
      else alook n rules := by
  induction l with
  | nil => intro rules; simp
  | cons t l ih =>
    intro rules
    simp only [List.foldl_cons]
    rw [ih, setUtility_alook]
    split
    · cases alook n rules <;> simp
    · rfl

theorem inner_keys (alpha r now : ℚ) (name : String) (l : List ℚ) : ∀ rules : Rules,
    (l.foldl (fun rs t => setUtility name (learn alpha r now t) rs) rules).map Prod.fst = rules.map Prod.fst := by
  induction l with
  | nil => intro rules; rfl
  | cons t l ih => intro rules; simp only [List.foldl_cons]; rw [ih, setUtility_keys]

theorem modifyUtilities_alook (alpha now r : ℚ) (n : String) (used : Used) (hu : (used.map Prod.fst).Nodup) : ∀ rules : Rules,
    alook n (modifyUtilities alpha now r used rules) =
      (alook n rules).map (fun x => { x with utility := ((alook n used).getD []).foldl (fun u t => learn alpha r now t u) x.utility }) := by
  induction used with
  | nil => intro rules; simp [modifyUtilities, alook]
  | cons p used ih =>
    obtain ⟨name, l⟩ := p
    intro rules
    simp only [List.map_cons, List.nodup_cons] at hu
    simp only [modifyUtilities, List.foldl_cons]
    rw [← modifyUtilities, ih hu.2, inner_alook]
    by_cases h : n = name
    · subst h
      have : alook n used = Option.none := alook_none_iff.mpr (fun a ha => hu.1 (List.mem_map.mpr ⟨_, ha, rfl⟩))
      simp only [if_true, this, alook]
      cases alook n rules <;> simp
    · simp only [h, Ne.symm h, if_false, alook]

/-- C33, one reward: every rule is updated once for each recorded use, in the order of the uses, and otherwise unchanged; no rule
is added or removed. -/
theorem C33_update (alpha now r : ℚ) (used : Used) (rules : Rules) (hu : (used.map Prod.fst).Nodup) :
    (modifyUtilities alpha now r used rules).map Prod.fst = rules.map Prod.fst ∧
    ∀ n rule, alook n rules = some rule → ∃ u', alook n (modifyUtilities alpha now r used rules) = some { rule with utility := u' } ∧
      LearnSteps alpha r now ((alook n used).getD []) rule.utility u' := by
  constructor
  · clear hu
    induction used generalizing rules with
    | nil => rfl
    | cons p used ih =>
      simp only [modifyUtilities, List.foldl_cons]
      rw [← modifyUtilities, ih, inner_keys]
  · intro n rule hn
    rw [modifyUtilities_alook alpha now r n used hu, hn]
    exact ⟨_, rfl, learnSteps_exist ..⟩

/-- C33, convergence: an update with a rate between 0 and 1 brings the utility closer to the delayed reward by the factor
`1 - alpha`, up to rounding. -/
theorem C33_contract (alpha r now t u u' : ℚ) (h0 : 0 ≤ alpha) (h1 : alpha ≤ 1) (h : LearnStep alpha r now t u u') :
    |u' - (r - (now - t))| ≤ (1 - alpha) * |u - (r - (now - t))| + 1 / 20000 := by
  obtain ⟨k, _, h2, _⟩ := h
  have e : (1 - alpha) * u + alpha * (r - (now - t)) - (r - (now - t)) = (1 - alpha) * (u - (r - (now - t))) := by ring
  have h3 : |(1 - alpha) * u + alpha * (r - (now - t)) - (r - (now - t))| = (1 - alpha) * |u - (r - (now - t))| := by
    rw [e, abs_mul, abs_of_nonneg (by linarith)]
  have h4 := abs_sub_le u' ((1 - alpha) * u + alpha * (r - (now - t))) (r - (now - t))
  rw [abs_sub_comm] at h2
  linarith

/-- Recording a use appends its time to the times of that rule and changes no other record. -/
theorem C33_record (name n : String) (t : ℚ) (used : Used) :
    (alook n (noteUse name t used)).getD [] = if n = name then (alook n used).getD [] ++ [t] else (alook n used).getD [] := by
  unfold noteUse
  rw [alook_aset]
  split
  · next h => subst h; rfl
  · rfl

/-- The hypotheses of C33 are met by two uses of one rule: 5 becomes 2.5 and 1.25. -/
example : ((([("a", [0, 0])] : Used).map Prod.fst).Nodup) ∧ LearnSteps (1 / 2) 0 0 [0, 0] 5 (5 / 4) := by
  refine ⟨by simp, .cons (v := 5 / 2) ⟨25000, by norm_num, by norm_num, by norm_num⟩ (.cons ⟨12500, by norm_num, by norm_num, by norm_num⟩ (.nil _))⟩

end Verif.Props
