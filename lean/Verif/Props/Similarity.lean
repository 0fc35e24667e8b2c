import Verif.Lemmas.ChunkProps
import Verif.Model.Similarity
import Mathlib.Tactic.NormNum
/-! # Property C08: similarities -/
namespace Verif.Props
open Verif Verif.Spec Classical

/-- The value of the last accepted call that mentions the pair `a`, `b` in either order; values with the same content are
the same. -/
noncomputable def lastSet (a b : Val) : List (Val × Val × ℚ) → Option ℚ
  | [] => Option.none
  | (x, y, q) :: r =>
    match lastSet a b r with
    | some p => some p
    | Option.none =>
      if q ≤ 0 ∧ ((content x = content a ∧ content y = content b) ∨ (content x = content b ∧ content y = content a))
      then some q else Option.none

/-- The keys of a similarity table are plain values. -/
def PlainTable (t : SimTable) : Prop := ∀ e ∈ t, PlainVal e.1.1 ∧ PlainVal e.1.2

theorem simLook_simSet {H : PyHash} (cf : H.CollisionFree) {a b a' b' : Val} (ha : PlainVal a) (hb : PlainVal b)
    (ha' : PlainVal a') (hb' : PlainVal b') (q : ℚ) (t : SimTable) (ht : PlainTable t) :
    simLook H a' b' (simSet H a b q t) =
      if content a = content a' ∧ content b = content b' then some q else simLook H a' b' t := by
  induction t with
  | nil =>
    simp only [simSet, simLook, Bool.and_eq_true, keyEq_content cf ha ha', keyEq_content cf hb hb']
  | cons e r ih =>
    obtain ⟨⟨x, y⟩, p⟩ := e
    obtain ⟨hx, hy⟩ := ht ((x, y), p) (by simp)
    have ih := ih (fun e he => ht e (by simp [he]))
    simp only [simSet, Bool.and_eq_true, keyEq_content cf hx ha, keyEq_content cf hy hb]
    split
    · next h =>
      simp only [simLook, Bool.and_eq_true, keyEq_content cf hx ha', keyEq_content cf hy hb', h.1, h.2]
      split <;> rfl
    · next h =>
      simp only [simLook, Bool.and_eq_true, keyEq_content cf hx ha', keyEq_content cf hy hb', ih]
      by_cases h1 : content x = content a' ∧ content y = content b'
      · have : ¬ (content a = content a' ∧ content b = content b') := by
          rintro ⟨h2, h3⟩; exact h ⟨h1.1.trans h2.symm, h1.2.trans h3.symm⟩
        simp [h1, this]
      · simp [h1]

theorem plainTable_simSet {H : PyHash} {a b : Val} (ha : PlainVal a) (hb : PlainVal b) (q : ℚ) (t : SimTable)
    (ht : PlainTable t) : PlainTable (simSet H a b q t) := by
  induction t with
  | nil => intro e he; simp [simSet] at he; subst he; exact ⟨ha, hb⟩
  | cons e r ih =>
    obtain ⟨⟨x, y⟩, p⟩ := e
    have h0 := ht ((x, y), p) (by simp)
    simp only [simSet]
    split
    · intro e he
      simp only [List.mem_cons] at he
      rcases he with rfl | he
      · exact h0
      · exact ht e (by simp [he])
    · intro e he
      simp only [List.mem_cons] at he
      rcases he with rfl | he
      · exact h0
      · exact ih (fun e he => ht e (by simp [he])) e he

theorem runSims_look {H : PyHash} (cf : H.CollisionFree) {a b : Val} (ha : PlainVal a) (hb : PlainVal b)
    (hist : List (Val × Val × ℚ)) (hh : ∀ e ∈ hist, PlainVal e.1 ∧ PlainVal e.2.1) :
    ∀ t : SimTable, PlainTable t → simLook H a b (runSims H t hist) = match lastSet a b hist with
      | some q => some q
      | Option.none => simLook H a b t := by
  induction hist with
  | nil => intro t _; rfl
  | cons e r ih =>
    intro t ht
    obtain ⟨x, y, q⟩ := e
    obtain ⟨hx, hy⟩ := hh (x, y, q) (by simp)
    simp only at hx hy
    have ih := ih (fun e he => hh e (by simp [he]))
    simp only [runSims, lastSet, setSimilarities]
    by_cases hq : q > 0
    · have hq' : ¬ q ≤ 0 := not_le.mpr hq
      simp only [hq, if_true, hq', false_and, if_false]
      rw [ih t ht]
      cases lastSet a b r <;> rfl
    · have hq' : q ≤ 0 := not_lt.mp hq
      simp only [hq, if_false, hq', true_and]
      rw [ih _ (plainTable_simSet hy hx q _ (plainTable_simSet hx hy q t ht))]
      cases lastSet a b r with
      | some p => rfl
      | none =>
        simp only
        rw [simLook_simSet cf hy hx ha hb q _ (plainTable_simSet hx hy q t ht), simLook_simSet cf hx hy ha hb q t ht]
        by_cases h1 : content y = content a ∧ content x = content b
        · simp [h1]
        · by_cases h2 : content x = content a ∧ content y = content b
          · simp [h2]
          · have : ¬ (content x = content b ∧ content y = content a) := fun h => h1 ⟨h.2, h.1⟩
            simp [h1, h2, this]

/-- C08: after any history of `set_similarities` calls (starting from a new model), the similarity used in partial matching
is the value of the last accepted call mentioning the two values in either order, and minus the mismatch penalty if there
was none. -/
theorem C08_last_write {H : PyHash} (cf : H.CollisionFree) (hist : List (Val × Val × ℚ))
    (hh : ∀ e ∈ hist, PlainVal e.1 ∧ PlainVal e.2.1) (cfg : MatchCfg) (hc : cfg.sims = runSims H [] hist)
    (a b : Val) (ha : PlainVal a) (hb : PlainVal b) :
    getSimilarity H cfg a b = (lastSet a b hist).getD (-cfg.penalty) := by
  have hsym : lastSet b a hist = lastSet a b hist := by
    induction hist with
    | nil => rfl
    | cons e r ih =>
      obtain ⟨x, y, q⟩ := e
      simp only [lastSet]
      have : lastSet b a r = lastSet a b r := by
        clear ih hh hc
        induction r with
        | nil => rfl
        | cons e r ih => obtain ⟨x, y, q⟩ := e; simp only [lastSet, ih, or_comm]
      rw [this]
      simp only [or_comm]
  simp only [getSimilarity, hc]
  rw [runSims_look cf hb ha hist hh [] (by intro e he; simp at he), hsym]
  cases lastSet a b hist <;> simp [simLook]

/-- C08: similarities are symmetric after every history. -/
theorem C08_symmetric {H : PyHash} (cf : H.CollisionFree) (hist : List (Val × Val × ℚ))
    (hh : ∀ e ∈ hist, PlainVal e.1 ∧ PlainVal e.2.1) (cfg : MatchCfg) (hc : cfg.sims = runSims H [] hist)
    (a b : Val) (ha : PlainVal a) (hb : PlainVal b) : getSimilarity H cfg a b = getSimilarity H cfg b a := by
  rw [C08_last_write cf hist hh cfg hc a b ha hb, C08_last_write cf hist hh cfg hc b a hb ha]
  congr 1
  clear hh hc
  induction hist with
  | nil => rfl
  | cons e r ih => obtain ⟨x, y, q⟩ := e; simp only [lastSet, ih, or_comm]

/-- C08: a call is rejected (with ACTRError, table unchanged) exactly if the value is positive; hence no similarity in any
reachable table is positive. -/
theorem C08_nonpositive (H : PyHash) :
    (∀ t a b q, (setSimilarities H t a b q = .error .actr ↔ q > 0) ∧ (q > 0 → runSims H t [(a, b, q)] = t)) ∧
    ∀ (hist : List (Val × Val × ℚ)), ∀ e ∈ runSims H [] hist, e.2 ≤ 0 := by
  constructor
  · intro t a b q
    constructor
    · simp only [setSimilarities]; split <;> simp_all
    · intro h; simp [runSims, setSimilarities, h]
  · intro hist
    have key : ∀ (a b : Val) (q : ℚ), q ≤ 0 → ∀ t : SimTable, (∀ e ∈ t, e.2 ≤ 0) → ∀ e ∈ simSet H a b q t, e.2 ≤ 0 := by
      intro a b q hq t
      induction t with
      | nil => intro _ e he; simp [simSet] at he; subst he; exact hq
      | cons x r ih =>
        intro ht
        obtain ⟨⟨u, v⟩, p⟩ := x
        simp only [simSet]
        split
        · intro e he
          simp only [List.mem_cons] at he
          rcases he with rfl | he
          · exact hq
          · exact ht e (by simp [he])
        · intro e he
          simp only [List.mem_cons] at he
          rcases he with rfl | he
          · exact ht _ (by simp)
          · exact ih (fun e he => ht e (by simp [he])) e he
    have : ∀ t : SimTable, (∀ e ∈ t, e.2 ≤ 0) → ∀ e ∈ runSims H t hist, e.2 ≤ 0 := by
      induction hist with
      | nil => intro t ht; exact ht
      | cons x r ih =>
        intro t ht
        obtain ⟨a, b, q⟩ := x
        simp only [runSims]
        apply ih
        simp only [setSimilarities]
        split
        · next t' h =>
          split at h
          · cases h
          · next hq =>
            simp only [Except.ok.injEq] at h
            subst h
            exact key b a q (not_lt.mp hq) _ (key a b q (not_lt.mp hq) t ht)
        · exact ht
    exact this [] (by simp)

/-- The hypotheses of C08 are met by a history with an overwritten pair, a rejected call and nested chunks. -/
example : let hist : List (Val × Val × ℚ) :=
      [(.str "a", .str "b", -1), (.str "b", .str "a", -2), (.str "a", .str "b", 3),
        (.chunk "f" [("s", .vv ⟨.str "1", Option.none, [], []⟩)], .str "b", 0)]
    (∀ e ∈ hist, PlainVal e.1 ∧ PlainVal e.2.1) ∧ lastSet (.str "a") (.str "b") hist = some (-2) ∧
      lastSet (.str "a") (.str "c") hist = Option.none := by
  refine ⟨?_, ?_, ?_⟩
  · intro e he
    simp at he
    rcases he with rfl | rfl | rfl | rfl <;> simp [PlainVal, PlainSlots, PlainSlot]
  · simp [lastSet, content]
    norm_num
  · simp [lastSet, content]

end Verif.Props
