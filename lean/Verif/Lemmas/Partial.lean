import Verif.Lemmas.ChunkProps
import Mathlib.Tactic.Linarith
/-! Helper lemmas about partial matching. -/
namespace Verif
open Verif.Spec

/-- How one step under partial matching compares with the same step under exact matching. -/
def StepRel {α : Type} (H : PyHash) (cfg : MatchCfg) (fp fe : MState → α → Except BV MState) : Prop :=
  ∀ st a, ∃ st', fp st a = .ok st' ∧ ((∀ x y, getSimilarity H cfg x y ≤ 0) → st'.sim ≤ st.sim) ∧
    (fe st a = .ok st' ∨ ((∃ b, fe st a = .error b) ∧ ((∀ x y, getSimilarity H cfg x y < 0) → st'.sim < st.sim)))

theorem StepRel.loop {α : Type} {H : PyHash} {cfg : MatchCfg} {fp fe : MState → α → Except BV MState}
    (h : StepRel H cfg fp fe) : StepRel H cfg (loopE fp) (loopE fe) := by
  intro st l
  induction l generalizing st with
  | nil => exact ⟨st, rfl, fun _ => le_refl _, Or.inl rfl⟩
  | cons a r ih =>
    obtain ⟨st1, h1, h2, h3⟩ := h st a
    obtain ⟨st2, g1, g2, g3⟩ := ih st1
    refine ⟨st2, by simp [loopE, h1, g1], fun hx => le_trans (g2 hx) (h2 hx), ?_⟩
    rcases h3 with h3 | ⟨⟨b, h3⟩, h4⟩
    · rcases g3 with g3 | ⟨⟨b, g3⟩, g4⟩
      · left; simp [loopE, h3, g3]
      · right; exact ⟨⟨b, by simp [loopE, h3, g3]⟩, fun hx => lt_of_lt_of_le (g4 hx) (h2 fun x y => (hx x y).le)⟩
    · right
      exact ⟨⟨b, by simp [loopE, h3]⟩, fun hx => lt_of_le_of_lt (g2 fun x y => (hx x y).le) (h4 hx)⟩

section
variable (H : PyHash) (cfg : MatchCfg) (hp : cfg.partialm = true) (sims : SimTable)
include hp

theorem penalise_partial (st : MState) (a b : Val) :
    penalise H cfg st a b = .ok { st with sim := st.sim + getSimilarity H cfg a b } := by
  simp [penalise, hp]

theorem rel_matchVarNeg (mv : Val) : StepRel H cfg (matchVarNeg H cfg mv) (matchVarNeg H (exactCfg sims) mv) := by
  intro st a
  simp only [matchVarNeg]
  split
  · refine ⟨_, penalise_partial H cfg hp st a mv, fun hx => ?_, Or.inr ⟨⟨_, penalise_exact ..⟩, fun hx => ?_⟩⟩
    · have := hx a mv; simp only; linarith
    · have := hx a mv; simp only; linarith
  · exact ⟨st, rfl, fun _ => le_refl _, Or.inl rfl⟩

theorem rel_matchVarPos (mv : Val) (var : String) :
    StepRel H cfg (fun st (_ : Unit) => matchVarPos H cfg mv var st) (fun st _ => matchVarPos H (exactCfg sims) mv var st) := by
  intro st a
  simp only [matchVarPos]
  split
  · next b _ =>
    split
    · exact ⟨st, rfl, fun _ => le_refl _, Or.inl rfl⟩
    · refine ⟨_, penalise_partial H cfg hp st b mv, fun hx => ?_, Or.inr ⟨⟨_, penalise_exact ..⟩, fun hx => ?_⟩⟩
      · have := hx b mv; simp only; linarith
      · have := hx b mv; simp only; linarith
  · exact ⟨_, rfl, fun _ => le_refl _, Or.inl rfl⟩

theorem rel_matchVar (mv : Val) : StepRel H cfg (fun st vr => matchVar H cfg mv vr st)
    (fun st vr => matchVar H (exactCfg sims) mv vr st) := by
  intro st vr
  cases vr with
  | none => exact ⟨st, rfl, fun _ => le_refl _, Or.inl rfl⟩
  | some var =>
    simp only [matchVar]
    split
    · exact ⟨st, rfl, fun _ => le_refl _, Or.inl rfl⟩
    · obtain ⟨st1, h1, h2, h3⟩ := (rel_matchVarNeg H cfg hp sims mv).loop st (st.bv.negGet var)
      obtain ⟨st2, g1, g2, g3⟩ := rel_matchVarPos H cfg hp sims mv var st1 ()
      refine ⟨st2, by simp only [h1]; exact g1, fun hx => le_trans (g2 hx) (h2 hx), ?_⟩
      rcases h3 with h3 | ⟨⟨b, h3⟩, h4⟩
      · rcases g3 with g3 | ⟨⟨b, g3⟩, g4⟩
        · left; simp only [h3]; exact g3
        · right; exact ⟨⟨b, by simp only [h3]; exact g3⟩, fun hx => lt_of_lt_of_le (g4 hx) (h2 fun x y => (hx x y).le)⟩
      · right
        exact ⟨⟨b, by simp only [h3]⟩, fun hx => lt_of_le_of_lt (g2 fun x y => (hx x y).le) (h4 hx)⟩

theorem rel_matchNegVar (mv : Val) : StepRel H cfg (matchNegVar H cfg mv) (matchNegVar H (exactCfg sims) mv) := by
  intro st var
  simp only [matchNegVar]
  split
  · next b _ =>
    split
    · rw [penalise_partial H cfg hp, penalise_exact]
      refine ⟨_, rfl, fun hx => ?_, Or.inr ⟨⟨_, rfl⟩, fun hx => ?_⟩⟩
      · have := hx b mv; simp only; linarith
      · have := hx b mv; simp only; linarith
    · exact ⟨_, rfl, fun _ => le_refl _, Or.inl rfl⟩
  · exact ⟨_, rfl, fun _ => le_refl _, Or.inl rfl⟩

theorem rel_matchValue (mv : Val) : StepRel H cfg (fun st v => matchValue H cfg mv v st)
    (fun st v => matchValue H (exactCfg sims) mv v st) := by
  intro st v
  simp only [matchValue]
  split
  · refine ⟨_, penalise_partial H cfg hp st v mv, fun hx => ?_, Or.inr ⟨⟨_, penalise_exact ..⟩, fun hx => ?_⟩⟩
    · have := hx v mv; simp only; linarith
    · have := hx v mv; simp only; linarith
  · exact ⟨st, rfl, fun _ => le_refl _, Or.inl rfl⟩

theorem rel_matchNegVal (mv : Val) : StepRel H cfg (matchNegVal H cfg mv) (matchNegVal H (exactCfg sims) mv) := by
  intro st v
  simp only [matchNegVal]
  split
  · refine ⟨_, penalise_partial H cfg hp st v mv, fun hx => ?_, Or.inr ⟨⟨_, penalise_exact ..⟩, fun hx => ?_⟩⟩
    · have := hx v mv; simp only; linarith
    · have := hx v mv; simp only; linarith
  · exact ⟨st, rfl, fun _ => le_refl _, Or.inl rfl⟩

theorem rel_matchSlot (d : Chunk) : StepRel H cfg (matchSlot H cfg d) (matchSlot H (exactCfg sims) d) := by
  intro st x
  simp only [matchSlot]
  obtain ⟨s1, a1, a2, a3⟩ := rel_matchVar H cfg hp sims (matchingVal d x.1) st (splitting x.2).vars
  obtain ⟨s2, b1, b2, b3⟩ := (rel_matchNegVar H cfg hp sims (matchingVal d x.1)).loop s1 (splitting x.2).negvars
  obtain ⟨s3, c1, c2, c3⟩ := rel_matchValue H cfg hp sims (matchingVal d x.1) s2 (splitting x.2).values
  obtain ⟨s4, d1, d2, d3⟩ := (rel_matchNegVal H cfg hp sims (matchingVal d x.1)).loop s3 (splitting x.2).negvalues
  simp only at a1 a3 c1 c3
  refine ⟨s4, by simp only [a1, b1, c1, d1],
    fun hx => le_trans (d2 hx) (le_trans (c2 hx) (le_trans (b2 hx) (a2 hx))), ?_⟩
  have le' : (∀ x y, getSimilarity H cfg x y < 0) → ∀ x y, getSimilarity H cfg x y ≤ 0 := fun h x y => (h x y).le
  rcases a3 with a3 | ⟨⟨b, a3⟩, a4⟩
  · simp only [a3]
    rcases b3 with b3 | ⟨⟨b, b3⟩, b4⟩
    · simp only [b3]
      rcases c3 with c3 | ⟨⟨b, c3⟩, c4⟩
      · simp only [c3]
        rcases d3 with d3 | ⟨⟨b, d3⟩, d4⟩
        · exact Or.inl d3
        · refine Or.inr ⟨⟨b, d3⟩, fun hx => ?_⟩
          have := d4 hx; have := c2 (le' hx); have := b2 (le' hx); have := a2 (le' hx); linarith
      · simp only [c3]
        refine Or.inr ⟨⟨b, rfl⟩, fun hx => ?_⟩
        have := d2 (le' hx); have := c4 hx; have := b2 (le' hx); have := a2 (le' hx); linarith
    · simp only [b3]
      refine Or.inr ⟨⟨b, rfl⟩, fun hx => ?_⟩
      have := d2 (le' hx); have := c2 (le' hx); have := b4 hx; have := a2 (le' hx); linarith
  · simp only [a3]
    refine Or.inr ⟨⟨b, rfl⟩, fun hx => ?_⟩
    have := d2 (le' hx); have := c2 (le' hx); have := b2 (le' hx); have := a4 hx; linarith

theorem rel_matchSlots (d : Chunk) : StepRel H cfg (matchSlots H cfg d) (matchSlots H (exactCfg sims) d) :=
  (rel_matchSlot H cfg hp sims d).loop

end

theorem loopE_append {α : Type} (f : MState → α → Except BV MState) (st : MState) (a b : List α) :
    loopE f st (a ++ b) = match loopE f st a with
      | .ok st' => loopE f st' b
      | .error e => .error e := by
  induction a generalizing st with
  | nil => rfl
  | cons x r ih =>
    simp only [List.cons_append, loopE]
    cases f st x with
    | ok s => exact ih s
    | error e => rfl

/-! The score as an explicit sum. -/
section
open Classical
variable {H : PyHash} (cf : H.CollisionFree) (cfg : MatchCfg) (hp : cfg.partialm = true)
include cf hp

/-- Data values only in the bindings. -/
def PlainBV (bv : BV) : Prop := (∀ y v, bv.get y = some v → PlainVal v) ∧ ∀ y v, v ∈ bv.negGet y → PlainVal v

theorem score_varNeg {mv : Val} (hmv : PlainVal mv) (l : List Val) (hl : ∀ v ∈ l, PlainVal v) (st : MState) :
    loopE (matchVarNeg H cfg mv) st l =
      .ok ⟨st.bv, st.sim + (l.map (fun e => if SameVal e mv then getSimilarity H cfg e mv else 0)).sum⟩ := by
  induction l generalizing st with
  | nil => simp [loopE]
  | cons a r ih =>
    have ha := hl a (by simp)
    have hiff := pyEq_iff cf a mv ha hmv
    simp only [loopE, matchVarNeg]
    by_cases h : SameVal a mv
    · rw [if_pos (hiff.mpr h), penalise_partial H cfg hp]
      simp only
      rw [ih (fun v hv => hl v (by simp [hv]))]
      simp [h, add_assoc]
    · rw [if_neg (fun hc => h (hiff.mp hc))]
      simp only
      rw [ih (fun v hv => hl v (by simp [hv]))]
      simp [h]

theorem score_negVal {mv : Val} (hmv : PlainVal mv) (l : List Val) (hl : ∀ v ∈ l, PlainVal v) (st : MState) :
    loopE (matchNegVal H cfg mv) st l =
      .ok ⟨st.bv, st.sim + (l.map (fun v => if Forbids v mv then getSimilarity H cfg v mv else 0)).sum⟩ := by
  induction l generalizing st with
  | nil => simp [loopE]
  | cons a r ih =>
    have ha := hl a (by simp)
    have hiff := forbids_iff cf a mv ha hmv
    simp only [loopE, matchNegVal]
    by_cases h : Forbids a mv
    · rw [if_pos (hiff.mpr h), penalise_partial H cfg hp]
      simp only
      rw [ih (fun v hv => hl v (by simp [hv]))]
      simp [h, add_assoc]
    · rw [if_neg (fun hc => h (hiff.mp hc))]
      simp only
      rw [ih (fun v hv => hl v (by simp [hv]))]
      simp [h]

theorem score_value {mv : Val} (hmv : PlainVal mv) (v : Val) (hv : PlainVal v) (st : MState) :
    matchValue H cfg mv v st =
      .ok ⟨st.bv, st.sim + (if Accepts v mv then 0 else getSimilarity H cfg v mv)⟩ := by
  have hiff := accepts_iff cf v mv hv hmv
  simp only [matchValue]
  by_cases h : Accepts v mv
  · have := hiff.mpr h
    rw [if_neg (by
      intro hc
      simp only [Bool.and_eq_true, Bool.not_eq_true'] at hc
      rcases this with h1 | h1 | h1 <;> simp_all)]
    simp [h]
  · rw [if_pos (by
      by_contra hc
      apply h
      rw [← hiff]
      simp only [Bool.and_eq_true, Bool.not_eq_true', not_and, Bool.not_eq_false] at hc
      by_cases h1 : v.truthy = true
      · by_cases h2 : pyEq H v .none = true
        · exact Or.inr (Or.inl h2)
        · exact Or.inr (Or.inr (hc ⟨h1, by simpa using h2⟩))
      · exact Or.inl (by simpa using h1)), penalise_partial H cfg hp]
    simp [h]

theorem score_negVar {mv : Val} (hmv : PlainVal mv) (l : List String) (st : MState) (hb : PlainBV st.bv) :
    loopE (matchNegVar H cfg mv) st l =
      .ok ⟨afterNeg H st.bv l mv, st.sim + (l.map (fun z => match st.bv.get z with
        | some b => if SameVal b mv then getSimilarity H cfg b mv else 0
        | Option.none => 0)).sum⟩ := by
  induction l generalizing st with
  | nil => simp [loopE, afterNeg]
  | cons a r ih =>
    have hb' : ∀ z, PlainBV (st.bv.negAdd H z mv) := by
      intro z
      refine ⟨fun y v h => hb.1 y v (by rw [get_negAdd] at h; exact h), fun y v h => ?_⟩
      rcases mem_negAdd H st.bv z y mv v h with h | h
      · exact hb.2 y v h
      · rw [h.2]; exact hmv
    simp only [loopE, matchNegVar]
    cases hg : st.bv.get a with
    | none =>
      simp only
      rw [ih _ (hb' a)]
      simp only [get_negAdd, afterNeg, List.foldl_cons, List.map_cons, List.sum_cons, hg, zero_add]
    | some b =>
      simp only
      have hiff := pyEq_iff cf b mv (hb.1 a b hg) hmv
      by_cases h : SameVal b mv
      · rw [if_pos (hiff.mpr h), penalise_partial H cfg hp]
        simp only
        rw [ih _ (hb' a)]
        simp only [get_negAdd, afterNeg, List.foldl_cons, List.map_cons, List.sum_cons, hg, h, if_true, add_assoc]
      · rw [if_neg (fun hc => h (hiff.mp hc))]
        simp only
        rw [ih _ (hb' a)]
        simp only [get_negAdd, afterNeg, List.foldl_cons, List.map_cons, List.sum_cons, hg, h, if_false, zero_add]

theorem score_var {mv : Val} (hmv : PlainVal mv) (vr : Option String) (st : MState) (hb : PlainBV st.bv) :
    matchVar H cfg mv vr st = .ok ⟨afterVar st.bv vr mv, st.sim + (match vr with
      | Option.none => 0
      | some y => if y = "" then 0 else
        ((st.bv.negGet y).map (fun e => if SameVal e mv then getSimilarity H cfg e mv else 0)).sum +
        (match st.bv.get y with
          | some b => if SameVal b mv then 0 else getSimilarity H cfg b mv
          | Option.none => 0))⟩ := by
  cases vr with
  | none => simp [matchVar, afterVar]
  | some y =>
    by_cases hy : y = ""
    · simp [matchVar, hy, afterVar]
    · simp only [matchVar, hy, if_false]
      rw [score_varNeg cf cfg hp hmv _ (hb.2 y)]
      simp only [matchVarPos]
      cases hg : st.bv.get y with
      | none => simp [afterVar, hy, hg]
      | some b =>
        have hiff := pyEq_iff cf b mv (hb.1 y b hg) hmv
        simp only
        by_cases h : SameVal b mv
        · rw [if_pos (hiff.mpr h)]; simp [afterVar, hy, hg, h]
        · rw [if_neg (fun hc => h (hiff.mp hc)), penalise_partial H cfg hp]; simp [afterVar, hy, hg, h, add_assoc]

omit cf hp in
theorem afterVar_get_bindVar (bv : BV) (vr : Option String) (mv : Val) :
    (afterVar bv vr mv).get = bindVar bv.get vr mv := by
  funext y; rw [afterVar_get]; rfl

omit hp in
theorem afterNeg_excludeVars {mv : Val} (hmv : PlainVal mv) (l : List String) :
    ∀ bv : BV, PlainBV bv → (afterNeg H bv l mv).negGet = excludeVars bv.negGet l mv := by
  induction l with
  | nil => intro bv _; funext y; simp [afterNeg, excludeVars]
  | cons a r ih =>
    intro bv hb
    have hb' : PlainBV (bv.negAdd H a mv) := by
      refine ⟨fun y v h => hb.1 y v (by rw [get_negAdd] at h; exact h), fun y v h => ?_⟩
      rcases mem_negAdd H bv a y mv v h with h | h
      · exact hb.2 y v h
      · rw [h.2]; exact hmv
    have h1 : afterNeg H bv (a :: r) mv = afterNeg H (bv.negAdd H a mv) r mv := by simp [afterNeg]
    rw [h1, ih _ hb']
    have hany : ∀ y, ((bv.negGet y).any (fun w => keyEq H w mv) = true) ↔ ∃ v ∈ bv.negGet y, content v = content mv := by
      intro y
      rw [List.any_eq_true]
      constructor
      · rintro ⟨v, hv, hk⟩; exact ⟨v, hv, (keyEq_content cf (hb.2 y v hv) hmv).mp hk⟩
      · rintro ⟨v, hv, hk⟩; exact ⟨v, hv, (keyEq_content cf (hb.2 y v hv) hmv).mpr hk⟩
    funext y
    simp only [excludeVars, negGet_negAdd]
    by_cases hya : y = a
    · subst hya
      by_cases hex : ∃ v ∈ bv.negGet y, content v = content mv
      · have hex' := (hany y).mpr hex
        simp only [List.mem_cons, true_or, hex, not_true_eq_false, and_false, if_false, hex', if_true]
      · have hex' : ¬ ((bv.negGet y).any (fun w => keyEq H w mv) = true) := fun h => hex ((hany y).mp h)
        have : ∃ v ∈ bv.negGet y ++ [mv], content v = content mv := ⟨mv, by simp, rfl⟩
        simp only [List.mem_cons, true_or, hex, not_false_eq_true, and_self, if_true, hex', if_false, Bool.false_eq_true]
        simp only [this, not_true_eq_false, and_false, if_false]
    · simp only [hya, if_false, List.mem_cons, false_or]

theorem score_slots {d : Chunk} (xs : Slots) (hmv : ∀ n s, (n, s) ∈ xs → PlainVal (matchingVal d n))
    (hpl : ∀ n x, (n, SlotOf.vv x) ∈ xs → PlainVal x.values ∧ ∀ v ∈ x.negvalues, PlainVal v) :
    ∀ st : MState, PlainBV st.bv → ∃ bv', matchSlots H cfg d st xs =
      .ok ⟨bv', st.sim + score (getSimilarity H cfg) (matchingVal d) st.bv.get st.bv.negGet xs⟩ := by
  induction xs with
  | nil => intro st _; exact ⟨st.bv, by simp [matchSlots, loopE, score]⟩
  | cons y r ih =>
    intro st hb
    obtain ⟨n, s⟩ := y
    have hm := hmv n s (by simp)
    have ih' := ih (fun n s h => hmv n s (by simp [h])) (fun n x h => hpl n x (by simp [h]))
    cases s with
    | empty =>
      obtain ⟨bv', h⟩ := ih' st hb
      refine ⟨bv', ?_⟩
      simp only [matchSlots] at h
      simp only [matchSlots, loopE, matchSlot, splitting, matchVar, matchValue, Val.truthy, Bool.false_and,
        Bool.false_eq_true, if_false, h, score]
    | vv x =>
      have hb1 : PlainBV (afterVar st.bv x.vars (matchingVal d n)) := by
        refine ⟨fun y v h => ?_, fun y v h => hb.2 y v (by rw [afterVar_negGet] at h; exact h)⟩
        rw [afterVar_get] at h
        cases hg : st.bv.get y with
        | some b => rw [hg] at h; simp only [Option.some.injEq] at h; subst h; exact hb.1 y _ hg
        | none =>
          rw [hg] at h; simp only at h
          split at h
          · simp only [Option.some.injEq] at h; subst h; exact hm
          · cases h
      have hb2 : PlainBV (afterNeg H (afterVar st.bv x.vars (matchingVal d n)) x.negvars (matchingVal d n)) := by
        refine ⟨fun y v h => hb1.1 y v (by rw [afterNeg_get] at h; exact h), fun y v h => ?_⟩
        rcases mem_afterNeg H _ _ v y _ h with h | ⟨_, rfl⟩
        · exact hb1.2 y v h
        · exact hm
      obtain ⟨h3, h4⟩ := hpl n x (by simp)
      have hslot : matchSlot H cfg d st (n, SlotOf.vv x) =
          .ok ⟨afterNeg H (afterVar st.bv x.vars (matchingVal d n)) x.negvars (matchingVal d n),
            st.sim + slotScore (getSimilarity H cfg) st.bv.get st.bv.negGet (matchingVal d n) x⟩ := by
        simp only [matchSlot, splitting]
        rw [score_var cf cfg hp hm x.vars st hb]
        simp only
        rw [score_negVar cf cfg hp hm x.negvars _ hb1]
        simp only
        rw [score_value cf cfg hp hm x.values h3]
        simp only
        rw [score_negVal cf cfg hp hm x.negvalues h4]
        simp only [slotScore, afterVar_get_bindVar, add_assoc]
        rfl
      obtain ⟨bv', h⟩ := ih' ⟨afterNeg H (afterVar st.bv x.vars (matchingVal d n)) x.negvars (matchingVal d n), st.sim + slotScore (getSimilarity H cfg) st.bv.get st.bv.negGet (matchingVal d n) x⟩ hb2
      refine ⟨bv', ?_⟩
      simp only [matchSlots] at h ⊢
      simp only [loopE, hslot]
      rw [h]
      have e1 : (afterNeg H (afterVar st.bv x.vars (matchingVal d n)) x.negvars (matchingVal d n)).get =
          bindVar st.bv.get x.vars (matchingVal d n) := by
        funext y; rw [afterNeg_get, afterVar_get_bindVar]
      have e2 : (afterNeg H (afterVar st.bv x.vars (matchingVal d n)) x.negvars (matchingVal d n)).negGet =
          excludeVars st.bv.negGet x.negvars (matchingVal d n) := by
        rw [afterNeg_excludeVars cf hm x.negvars _ hb1]
        congr 1
        funext y; rw [afterVar_negGet]
      simp only [score, e1, e2, add_assoc]

end
end Verif
