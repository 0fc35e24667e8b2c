import Verif.Lemmas.Storage
import Verif.Props.Compile
import Verif.Props.Learning
import Verif.Spec.Repertoire
/-! # All that happens to the rules -/
namespace Verif
open Verif.Spec Verif.Props Relation

variable {C : Cfg} {w w' : Mach} {n : String}

theorem relearned_refl (w : Mach) : Relearned w w := by
  refine ⟨fun n => ((alook n w.rules).map CRule.utility).getD 0, fun n => ?_⟩
  dsimp only
  cases alook n w.rules <;> rfl

/-- A change of utilities as a function on the rules. -/
theorem relearned_set (name : String) (f : ℚ → ℚ) (rules rules0 : CRules) (h : ∃ g : String → ℚ, ∀ n, alook n rules = (alook n rules0).map (fun r => { r with utility := g n })) :
    ∃ g : String → ℚ, ∀ n, alook n (setUtilityC name f rules) = (alook n rules0).map (fun r => { r with utility := g n }) := by
  obtain ⟨g, hg⟩ := h
  refine ⟨fun n => if n = name then f (g n) else g n, fun n => ?_⟩
  rw [setUtilityC_alook, hg]
  by_cases hn : n = name
  · simp only [hn, if_true]
    cases alook name rules0 <;> rfl
  · simp only [hn, if_false]

theorem relearned_modify (alpha time reward : ℚ) (rules0 : CRules) : ∀ (used : Used) (rules : CRules), (∃ g : String → ℚ, ∀ n, alook n rules = (alook n rules0).map (fun r => { r with utility := g n })) →
    ∃ g : String → ℚ, ∀ n, alook n (modifyUtilitiesC alpha time reward used rules) = (alook n rules0).map (fun r => { r with utility := g n })
  | [], _, h => h
  | (k, ts) :: used, rules, h => by
    have inner : ∀ (ts : List ℚ) (rules : CRules), (∃ g : String → ℚ, ∀ n, alook n rules = (alook n rules0).map (fun r => { r with utility := g n })) →
        ∃ g : String → ℚ, ∀ n, alook n (ts.foldl (fun rs t => setUtilityC k (learn alpha reward time t) rs) rules) = (alook n rules0).map (fun r => { r with utility := g n }) := by
      intro ts
      induction ts with
      | nil => intro rules h; exact h
      | cons t ts ih => intro rules h; exact ih _ (relearned_set k _ _ _ h)
    exact relearned_modify alpha time reward rules0 used _ (inner ts rules h)

theorem practised_reward (n : String) (t : ℚ) (w : Mach) : Practised C w (rewardStep C n t w) := by
  unfold rewardStep
  split
  · rename_i hl
    split
    · exact .reward hl (relearned_modify _ _ _ _ _ _ (relearned_refl w)) rfl
    · exact .other rfl rfl
  · exact .other rfl rfl

theorem namedAfter_compiledName (r1 r2 : String) (i : ℕ) : NamedAfter (compiledName r1 r2 i) r1 r2 := by
  unfold compiledName
  split
  · rename_i h; exact .inr ⟨i, h, rfl⟩
  · exact .inl rfl

theorem practised_compile (w : Mach) : Practised C w (compileIn C w).1 := by
  unfold compileIn
  split
  · rename_i r1 r2 sv hco _
    dsimp only
    rcases compileRules_cases C.P w.reg C.up w.rules r1 r2 sv w.cbufs with ⟨h1, h2⟩ | ⟨e, h1, h2⟩ | ⟨x1, x2, new, h1, h2, hn, hl⟩
    · rw [h1, h2]; exact .other rfl rfl
    · rw [h1, h2]; exact .other rfl rfl
    · obtain ⟨i, _, _, hc⟩ := nameLoop_pair hl
      rcases hc with ⟨ha, hr, ho⟩ | ⟨r, ha, ⟨e, hb, hr, ho⟩ | ⟨hb, hr, ho⟩⟩
      · rw [ho, hr]
        exact .fresh _ r1 r2 x1 x2 new w.reg sv w.cbufs hco h1 h2 (namedAfter_compiledName r1 r2 i) hn (fun r hh => by unfold HasRule at hh; rw [ha] at hh; cases hh)
          (by show alook _ _ = _; rw [alook_aset, if_pos rfl]) (fun m hm => by show alook _ _ = _; rw [alook_aset, if_neg hm]) rfl
      · rw [ho, hr]; exact .other rfl rfl
      · rw [ho, hr]
        refine .again _ r1 r2 r hco (namedAfter_compiledName r1 r2 i) ha ?_ rfl
        dsimp only
        by_cases hu : C.up.utilityLearning = true
        · refine .inr ⟨hu, fun n => if n = compiledName r1 r2 i then round4 (r.utility + C.up.alpha * (x1.utility - r.utility)) else ((alook n w.rules).map CRule.utility).getD 0, fun n => ?_⟩
          show alook n (relearn _ _ _ _ _) = _
          unfold relearn
          rw [if_pos hu, alook_aset]
          by_cases hn : n = compiledName r1 r2 i
          · subst hn
            simp only [if_true, ha]
            rfl
          · simp only [hn, if_false]
            cases alook n w.rules <;> rfl
        · refine .inl ?_
          unfold relearn
          rw [if_neg hu]
  · exact .other rfl rfl

theorem upd_rules (w : Mach) (n : String) (f : Buf → Buf) : (w.upd n f).rules = w.rules := by rw [upd_eq]
theorem upd_ordered (w : Mach) (n : String) (f : Buf → Buf) : (w.upd n f).ordered = w.ordered := by rw [upd_eq]

theorem atoms_practice (C : Cfg) : Atoms C (fun _ _ => True) (Practice C) where
  mint := mint_any C.P
  refl _ := .refl
  trans _ _ _ h1 h2 := h1.trans h2
  upd w n f hf := .single (.other (upd_rules ..) (upd_ordered ..))
  other w w' _ _ _ _ h1 h2 _ := .single (.other h1 h2)
  environ w e := .single (.other rfl rfl)
  reg w r _ := .single (.other rfl rfl)
  mems w l h := .single (.other rfl rfl)
  buf w n b st hb h := .single (.other (upd_rules ..) (upd_ordered ..))
  exec w n b c hb := .single (.other (upd_rules ..) (upd_ordered ..))
  reward n t w := .single (practised_reward n t w)
  compile w := .single (practised_compile w)

/-! ## What follows -/

theorem asBefore_refl (r : CRule) : AsBefore C r r := ⟨rfl, rfl, fun _ => rfl⟩

theorem _root_.Verif.Spec.AsBefore.trans {r r1 r2 : CRule} (h1 : AsBefore C r r1) (h2 : AsBefore C r1 r2) : AsBefore C r r2 :=
  ⟨h2.body.trans h1.body, h2.reward.trans h1.reward, fun h => (h2.utility h).trans (h1.utility h)⟩

theorem relearned_has {r : CRule} (hl : C.up.utilityLearning = true) (h : Relearned w w') (hr : HasRule w n r) : ∃ r', HasRule w' n r' ∧ AsBefore C r r' := by
  obtain ⟨f, hf⟩ := h
  refine ⟨{ r with utility := f n }, ?_, rfl, rfl, fun h => by rw [hl] at h; cases h⟩
  unfold HasRule at hr ⊢
  rw [hf, hr]; rfl

theorem relearned_had {r' : CRule} (hl : C.up.utilityLearning = true) (h : Relearned w w') (hr : HasRule w' n r') : ∃ r, HasRule w n r ∧ AsBefore C r r' := by
  obtain ⟨f, hf⟩ := h
  unfold HasRule at hr
  rw [hf] at hr
  obtain ⟨r, h1, rfl⟩ := Option.map_eq_some_iff.1 hr
  exact ⟨r, h1, rfl, rfl, fun h => by rw [hl] at h; cases h⟩

theorem practised_kept {r : CRule} (h : Practised C w w') (hr : HasRule w n r) : ∃ r', HasRule w' n r' ∧ AsBefore C r r' := by
  cases h with
  | other h _ => exact ⟨r, by unfold HasRule; rw [h]; exact hr, asBefore_refl r⟩
  | reward hl h _ => exact relearned_has hl h hr
  | fresh m r1 r2 x1 x2 new reg sv bufs _ _ _ _ _ ha _ ho _ =>
    refine ⟨r, ?_, asBefore_refl r⟩
    unfold HasRule
    rw [ho n (by rintro rfl; exact ha r hr)]
    exact hr
  | again m r1 r2 x _ _ _ h _ =>
    rcases h with h | ⟨hl, h⟩
    · exact ⟨r, by unfold HasRule; rw [h]; exact hr, asBefore_refl r⟩
    · exact relearned_has hl h hr

theorem practice_kept {r : CRule} (h : Practice C w w') (hr : HasRule w n r) : ∃ r', HasRule w' n r' ∧ AsBefore C r r' := by
  induction h with
  | refl => exact ⟨r, hr, asBefore_refl r⟩
  | tail _ h ih =>
    obtain ⟨r1, h1, h2⟩ := ih
    obtain ⟨r2, h3, h4⟩ := practised_kept h h1
    exact ⟨r2, h3, h2.trans h4⟩

/-- A rule was there before, or it is new. -/
theorem practised_cases {r' : CRule} (h : Practised C w w') (hr : HasRule w' n r') : (∃ r, HasRule w n r ∧ AsBefore C r r') ∨
    (∃ r1 r2 x1 x2 new reg sv bufs, C.compilation = true ∧ HasRule w r1 x1 ∧ HasRule w r2 x2 ∧ NamedAfter n r1 r2 ∧ newRule C.P reg r2 x1.body x2.body sv bufs = .ok (some new) ∧ r' = ⟨new, 0, Option.none⟩) := by
  cases h with
  | other h _ => exact .inl ⟨r', by unfold HasRule at hr ⊢; rw [← h]; exact hr, asBefore_refl r'⟩
  | reward hl h _ => exact .inl (relearned_had hl h hr)
  | fresh m r1 r2 x1 x2 new reg sv bufs hc h1 h2 hn hw ha hm ho _ =>
    by_cases hmn : n = m
    · subst hmn
      unfold HasRule at hr hm
      rw [hm] at hr
      exact .inr ⟨r1, r2, x1, x2, new, reg, sv, bufs, hc, h1, h2, hn, hw, (Option.some.inj hr).symm⟩
    · exact .inl ⟨r', by unfold HasRule at hr ⊢; rw [← ho n hmn]; exact hr, asBefore_refl r'⟩
  | again m r1 r2 x _ _ _ h _ =>
    rcases h with h | ⟨hl, h⟩
    · exact .inl ⟨r', by unfold HasRule at hr ⊢; rw [← h]; exact hr, asBefore_refl r'⟩
    · exact .inl (relearned_had hl h hr)

theorem practice_stems {r' : CRule} (h : Practice C w w') (hr : HasRule w' n r') : Stems C w n r'.body := by
  induction h generalizing n r' with
  | refl => exact .given hr
  | tail _ h ih =>
    rcases practised_cases h hr with ⟨r, h1, h2⟩ | ⟨r1, r2, x1, x2, new, reg, sv, bufs, hc, h1, h2, h3, h4, rfl⟩
    · rw [h2.body]; exact ih h1
    · exact .made reg sv bufs hc (ih h1) (ih h2) h3 h4

theorem practice_off (hc : C.compilation = false) (h : Practice C w w') : w'.ordered = w.ordered ∧ ∀ r', HasRule w' n r' → ∃ r, HasRule w n r ∧ AsBefore C r r' := by
  induction h with
  | refl => exact ⟨rfl, fun r h => ⟨r, h, asBefore_refl r⟩⟩
  | tail _ h ih =>
    refine ⟨?_, fun r' hr => ?_⟩
    · cases h with
      | other _ h | reward _ _ h => exact h.trans ih.1
      | fresh _ _ _ _ _ _ _ _ _ h | again _ _ _ _ h => rw [hc] at h; cases h
    · rcases practised_cases h hr with ⟨r, h1, h2⟩ | ⟨_, _, _, _, _, _, _, _, h, _⟩
      · obtain ⟨r0, h3, h4⟩ := ih.2 r h1
        exact ⟨r0, h3, h4.trans h2⟩
      · rw [hc] at h; cases h

theorem practice_prefix (h : Practice C w w') : w.ordered <+: w'.ordered := by
  induction h with
  | refl => exact List.prefix_rfl
  | tail _ h ih =>
    refine ih.trans ?_
    cases h with
    | other _ h | reward _ _ h => rw [h]
    | fresh _ _ _ _ _ _ _ _ _ _ _ _ _ _ _ _ _ h | again _ _ _ _ _ _ _ _ h => rw [h]; exact List.prefix_append _ _

theorem practised_tried (h : Practised C w w') (hw : AllTried w) : AllTried w' := by
  have hk : ∀ n, (∃ r, HasRule w n r) → ∃ r, HasRule w' n r := fun n ⟨r, hr⟩ => (practised_kept h hr).imp fun _ h => h.1
  have old : (∀ n r', HasRule w' n r' → ∃ r, HasRule w n r) → ∀ n, (∃ r, HasRule w' n r) → n ∈ w.ordered := fun h n ⟨r, hr⟩ => (hw n).2 (h n r hr)
  intro n
  cases h with
  | other h ho =>
    rw [ho, hw n]; unfold HasRule; rw [h]
  | reward hl h ho =>
    rw [ho]
    exact ⟨fun hn => hk n ((hw n).1 hn), old (fun n r' hr => (relearned_had hl h hr).imp fun _ h => h.1) n⟩
  | fresh m r1 r2 x1 x2 new reg sv bufs hc h1 h2 hn hnew ha hm ho hl =>
    rw [hl, List.mem_append, List.mem_singleton]
    refine ⟨fun h => h.elim (fun h => hk n ((hw n).1 h)) (fun h => h ▸ ⟨_, hm⟩), fun ⟨r, hr⟩ => ?_⟩
    by_cases hmn : n = m
    · exact .inr hmn
    · exact .inl ((hw n).2 ⟨r, by unfold HasRule at hr ⊢; rw [← ho n hmn]; exact hr⟩)
  | again m r1 r2 x hc hn hx h hl =>
    rw [hl, List.mem_append, List.mem_singleton]
    refine ⟨fun h => h.elim (fun h => hk n ((hw n).1 h)) (fun h => h ▸ hk m ⟨_, hx⟩), fun hr => .inl (old (fun n r' hr => ?_) n hr)⟩
    rcases h with h | ⟨hl, h⟩
    · exact ⟨r', by unfold HasRule at hr ⊢; rw [← h]; exact hr⟩
    · exact (relearned_had hl h hr).imp fun _ h => h.1

theorem practice_tried (h : Practice C w w') (hw : AllTried w) : AllTried w' := by
  induction h with
  | refl => exact hw
  | tail _ h ih => exact practised_tried h ih

/-- Without learning: rules named after others have utility 0, all others none below. -/
structure Ranked (w : Mach) : Prop where
  order : BestFirst w
  known : ∀ n ∈ w.ordered, ∃ r, HasRule w n r
  low : ∀ n r, HasRule w n r → 0 ≤ r.utility
  made : ∀ n r r1 r2, HasRule w n r → NamedAfter n r1 r2 → r.utility = 0

theorem practised_ranked (hl : C.up.utilityLearning = false) (h : Practised C w w') (hw : Ranked w) : Ranked w' := by
  have hk := fun {n r} => practised_kept (n := n) (r := r) h
  have back : ∀ {n r r'}, HasRule w n r → HasRule w' n r' → r'.utility = r.utility := fun {n r r'} h1 h2 => by
    obtain ⟨r1, h3, h4⟩ := hk h1
    have : r' = r1 := Option.some.inj (h2.symm.trans h3)
    rw [this]; exact h4.utility hl
  have pair : w.ordered.Pairwise (fun a b => ∀ r r', HasRule w' a r → HasRule w' b r' → r'.utility ≤ r.utility) := by
    refine List.Pairwise.imp_of_mem (fun {a b} ha hb h r r' h1 h2 => ?_) hw.order
    obtain ⟨ra, ha⟩ := hw.known a ha
    obtain ⟨rb, hb⟩ := hw.known b hb
    rw [back ha h1, back hb h2]
    exact h ra rb ha hb
  have known : ∀ n ∈ w.ordered, ∃ r, HasRule w' n r := fun n hn => by
    obtain ⟨r, hr⟩ := hw.known n hn
    exact (hk hr).imp fun _ h => h.1
  have low : ∀ n r, HasRule w' n r → 0 ≤ r.utility := fun n r hr => by
    rcases practised_cases h hr with ⟨r0, h1, h2⟩ | ⟨_, _, _, _, _, _, _, _, _, _, _, _, _, rfl⟩
    · rw [h2.utility hl]; exact hw.low n r0 h1
    · exact le_rfl
  have made : ∀ n r r1 r2, HasRule w' n r → NamedAfter n r1 r2 → r.utility = 0 := fun n r r1 r2 hr hn => by
    rcases practised_cases h hr with ⟨r0, h1, h2⟩ | ⟨_, _, _, _, _, _, _, _, _, _, _, _, _, rfl⟩
    · rw [h2.utility hl]; exact hw.made n r0 r1 r2 h1 hn
    · rfl
  have more : ∀ m r1 r2, NamedAfter m r1 r2 → (∃ r, HasRule w' m r) → w'.ordered = w.ordered ++ [m] → Ranked w' := fun m r1 r2 hn hm ho => by
    refine ⟨?_, fun n hn => ?_, low, made⟩
    · unfold BestFirst
      rw [ho, List.pairwise_append]
      refine ⟨pair, List.pairwise_singleton _ _, fun a _ b hb r r' hr hr' => ?_⟩
      cases List.mem_singleton.1 hb
      rw [made _ r' r1 r2 hr' hn]
      exact low a r hr
    · rw [ho, List.mem_append, List.mem_singleton] at hn
      rcases hn with h | rfl
      · exact known n h
      · exact hm
  cases h with
  | other h ho => exact ⟨by unfold BestFirst; rw [ho]; exact pair, by rw [ho]; exact known, low, made⟩
  | reward h => rw [hl] at h; cases h
  | fresh m r1 r2 x1 x2 new reg sv bufs hc h1 h2 hn hnew ha hm ho hl => exact more m r1 r2 hn ⟨_, hm⟩ hl
  | again m r1 r2 x hc hn hx h hl => exact more m r1 r2 hn ((hk hx).imp fun _ h => h.1) hl

theorem practice_ranked (hl : C.up.utilityLearning = false) (h : Practice C w w') (hw : Ranked w) : Ranked w' := by
  induction h with
  | refl => exact hw
  | tail _ h ih => exact practised_ranked hl h ih

end Verif
