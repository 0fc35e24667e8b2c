import Verif.Lemmas.Confined
import Verif.Props.Cycle
import Verif.Spec.Learning
/-! # Property C33: utility learning over whole histories -/
namespace Verif.Props
open Verif Verif.Spec

/-! ## One reward -/

theorem setUtilityC_alook (name n : String) (f : ℚ → ℚ) (rules : CRules) :
    alook n (setUtilityC name f rules) =
      if n = name then (alook n rules).map (fun r => { r with utility := f r.utility }) else alook n rules := by
  unfold setUtilityC
  cases h : alook name rules with
  | none =>
    simp only
    split
    · next e => subst e; rw [h]; rfl
    · rfl
  | some r =>
    simp only [alook_aset]
    split
    · next e => subst e; rw [h]; rfl
    · rfl

theorem innerC_alook (alpha r now : ℚ) (name n : String) (l : List ℚ) : ∀ rules : CRules,
    alook n (l.foldl (fun rs t => setUtilityC name (learn alpha r now t) rs) rules) =
      if n = name then (alook n rules).map (fun x => { x with utility := l.foldl (fun u t => learn alpha r now t u) x.utility })
      else alook n rules := by
  induction l with
  | nil => intro rules; simp
  | cons t l ih =>
    intro rules
    simp only [List.foldl_cons]
    rw [ih, setUtilityC_alook]
    split
    · cases alook n rules <;> simp
    · rfl

theorem modifyUtilitiesC_alook (alpha now r : ℚ) (n : String) (used : Used) (hu : (used.map Prod.fst).Nodup) : ∀ rules : CRules,
    alook n (modifyUtilitiesC alpha now r used rules) =
      (alook n rules).map (fun x => { x with utility := ((alook n used).getD []).foldl (fun u t => learn alpha r now t u) x.utility }) := by
  induction used with
  | nil => intro rules; simp [modifyUtilitiesC, alook]
  | cons p used ih =>
    obtain ⟨name, l⟩ := p
    intro rules
    simp only [List.map_cons, List.nodup_cons] at hu
    simp only [modifyUtilitiesC, List.foldl_cons]
    rw [← modifyUtilitiesC, ih hu.2, innerC_alook]
    by_cases h : n = name
    · subst h
      have : alook n used = Option.none := alook_none_iff.mpr (fun a ha => hu.1 (List.mem_map.mpr ⟨_, ha, rfl⟩))
      simp only [if_true, this, alook]
      cases alook n rules <;> simp
    · simp only [h, Ne.symm h, if_false, alook]

/-! ## The record -/

/-- Rules and their record are the same. -/
def SameBook (w w' : Mach) : Prop := w'.rules = w.rules ∧ w'.used = w.used

theorem sameBook_refl (w : Mach) : SameBook w w := ⟨rfl, rfl⟩
theorem sameBook_trans (a b c : Mach) (h1 : SameBook a b) (h2 : SameBook b c) : SameBook a c := ⟨h2.1.trans h1.1, h2.2.trans h1.2⟩
theorem sameBook_private (a b : Mach) (h : Private a b) : SameBook a b := ⟨h.rules, h.used⟩
theorem sameBook_ledger {a b : Mach} (h : SameBook a b) : ledgerOf b = ledgerOf a := by
  unfold ledgerOf
  rw [h.1, h.2]

theorem sameBook_upd (w : Mach) (n : String) (f : Buf → Buf) : SameBook w (w.upd n f) := by
  constructor <;> rw [upd_eq]

theorem sameBook_immediate (C : Cfg) (k : Key) (v : RVal) (bv : BV) (t : ℚ) (w : Mach) : (immediate C k v bv t w).Moves SameBook w :=
  moves_mono (fun _ _ h => ⟨h.rules, h.used⟩) ((confined_immediate C k v bv t).moves w)

theorem sameBook_updateLoop (C : Cfg) (t : ℚ) : ∀ (l : List (Key × RVal)) (temp : BV) (w : Mach), (updateLoop C t l temp w).Moves SameBook w
  | [], temp, w => sameBook_refl w
  | (k, v) :: r, temp, w => by
    unfold updateLoop
    refine moves_bind sameBook_trans (moves_act ?_) fun _ w => moves_bind sameBook_trans (moves_get sameBook_refl _ _) fun bv w =>
      moves_bind sameBook_trans (moves_set (sameBook_upd w _ _)) fun _ w => ?_
    · split <;> exact sameBook_refl w
    · split_ifs
      · exact moves_bind sameBook_trans (moves_set (sameBook_refl _)) fun _ w => sameBook_updateLoop C t r _ w
      · exact moves_bind sameBook_trans (sameBook_immediate ..) fun _ w => sameBook_updateLoop C t r _ w

theorem sameBook_harvestAll (t : ℚ) : ∀ (ns : List String) (w : Mach), SameBook w (harvestAll t ns w)
  | [], w => sameBook_refl w
  | n :: ns, w => by
    simp only [harvestAll]
    split
    · exact sameBook_trans _ (w.queue n (.clear n w.bv t)) _ ⟨rfl, rfl⟩ (sameBook_harvestAll t ns _)
    · exact sameBook_harvestAll t ns w

theorem sameBook_rhs (C : Cfg) (n : String) (rule : CRule) (t : ℚ) (w : Mach) : (genRhs C n rule t w).Moves SameBook w := by
  unfold genRhs genUpdate
  refine moves_bind sameBook_trans (moves_lift sameBook_refl _ _) fun _ w =>
    moves_bind sameBook_trans (moves_bind sameBook_trans (moves_get sameBook_refl _ _) fun _ w =>
      moves_bind sameBook_trans (moves_lift sameBook_refl _ _) fun _ w =>
      moves_bind sameBook_trans (sameBook_updateLoop ..) fun _ w => moves_set ?_) fun _ w => moves_set ?_
  · split
    · exact sameBook_harvestAll ..
    · exact sameBook_refl w
  · split
    · split <;> exact ⟨rfl, rfl⟩
    · exact ⟨rfl, rfl⟩

theorem sameBook_reward (C : Cfg) (n : String) (q : ℚ) {w w' : Mach} (h : SameBook w w') : SameBook (rewardStep C n q w) (rewardStep C n q w') := by
  unfold rewardStep
  split
  · rw [h.1]
    cases (alook n w.rules).bind CRule.reward with
    | none => exact h
    | some r => exact ⟨by simp only [h.1, h.2], rfl⟩
  · exact h

/-- The rules and their record after rule `n` has fired: rewards have been given, and then rules may have been compiled. -/
def AfterFiring (C : Cfg) (n : String) (q : ℚ) (w w' : Mach) : Prop :=
  w'.used = (rewardStep C n q w).used ∧ (w'.rules = (rewardStep C n q w).rules ∨ C.compilation = true ∧
    ∃ reg r1 r2 sv bufs, w'.rules = (compileRules C.P reg C.up (rewardStep C n q w).rules r1 r2 sv bufs).1)

theorem AfterFiring.same {C : Cfg} {n : String} {q : ℚ} {w w' w'' : Mach} (h : AfterFiring C n q w w') (hs : SameBook w' w'') : AfterFiring C n q w w'' :=
  ⟨hs.2.trans h.1, by rw [hs.1]; exact h.2⟩

theorem AfterFiring.before {C : Cfg} {n : String} {q : ℚ} {w w' w'' : Mach} (hs : SameBook w w') (h : AfterFiring C n q w' w'') : AfterFiring C n q w w'' := by
  have e := sameBook_reward C n q hs
  refine ⟨h.1.trans e.2, ?_⟩
  have h2 := h.2
  rw [e.1] at h2
  exact h2

theorem AfterFiring.plain {C : Cfg} (hc : C.compilation = false) {n : String} {q : ℚ} {w w' : Mach} (h : AfterFiring C n q w w') :
    SameBook (rewardStep C n q w) w' := by
  refine ⟨?_, h.1⟩
  rcases h.2 with e | ⟨e, _⟩
  · exact e
  · rw [hc] at e; cases e

theorem compileIn_book (C : Cfg) (w : Mach) : (compileIn C w).1.used = w.used ∧ ((compileIn C w).1.rules = w.rules ∨ C.compilation = true ∧
    ∃ reg r1 r2 sv bufs, (compileIn C w).1.rules = (compileRules C.P reg C.up w.rules r1 r2 sv bufs).1) := by
  unfold compileIn
  split
  · next hc _ =>
    dsimp only
    split
    · exact ⟨rfl, .inr ⟨hc, _, _, _, _, _, rfl⟩⟩
    · exact ⟨rfl, .inr ⟨hc, _, _, _, _, _, rfl⟩⟩
    · exact ⟨rfl, .inr ⟨hc, _, _, _, _, _, rfl⟩⟩
  · exact ⟨rfl, .inl rfl⟩

/-- What firing does to the record. -/
theorem fire_book (C : Cfg) (n : String) (rule : CRule) (q : ℚ) (w : Mach) {l : List (Mach × YV)} {e : GEnd Mach Unit}
    (h : Runs Private (genFire C n rule q w) l e) :
    ((∀ x ∈ l, ¬ IsOutcome x) ∧ ∀ w', e ≠ .ret w' ()) ∨
    (∃ mid o rest, l = mid ++ o :: rest ∧ o.2 = .ev ⟨round4 q, procName, .fired n⟩ ∧ (∀ x ∈ mid ++ rest, ¬ IsOutcome x) ∧
      AfterFiring C n q w o.1 ∧ ∀ w', e = .ret w' () → AfterFiring C n q w w') := by
  unfold genFire at h
  simp only [genM_bind_apply, genM_set_apply, out_bind_ret] at h
  have hb := compileIn_book C (rewardStep C n q w)
  rcases hcomp : compileIn C (rewardStep C n q w) with ⟨w1, x | comp⟩
  · rw [genM_act_error hcomp] at h
    cases h
    exact .inl ⟨by simp, by simp⟩
  rw [genM_act_ok hcomp] at h
  rw [hcomp] at hb
  simp only [out_bind_ret, genM_set_apply] at h
  have hfin : ∀ {w2 : Mach} {l e}, AfterFiring C n q w w2 →
      Runs Private (((GenM.event q procName (.fired n)) { w2 with curSlots := w2.noSlots }).bind fun _ => genRhs C n rule q) l e →
      ∃ o rest, l = o :: rest ∧ o.2 = .ev ⟨round4 q, procName, .fired n⟩ ∧ (∀ x ∈ rest, ¬ IsOutcome x) ∧
      AfterFiring C n q w o.1 ∧ ∀ w', e = .ret w' () → AfterFiring C n q w w' := by
    intro w2 l e h2 h
    have h3 : AfterFiring C n q w { w2 with curSlots := w2.noSlots } := h2.same ⟨rfl, rfl⟩
    cases h with
    | cut => exact ⟨_, _, rfl, rfl, by simp, h3, by simp⟩
    | yield hw h =>
      refine ⟨_, _, rfl, rfl, fun x hx => (minor_not (runs_yields h (minor_rhs ..) x hx)).1, h3, fun w' h' => ?_⟩
      exact (h3.same (sameBook_private _ _ hw)).same ((runs_moves sameBook_trans sameBook_private h (sameBook_rhs ..)).2.1 w' () h')
  have h1 : AfterFiring C n q w { w1 with compile := Option.none } := hb
  cases comp with
  | none =>
    obtain ⟨o, rest, hl, ho, hn, h⟩ := hfin h1 h
    exact .inr ⟨[], o, rest, hl, ho, hn, h⟩
  | some p =>
    obtain ⟨m, re⟩ := p
    have no : ∀ (w : Mach), ¬ IsOutcome (w, .ev ⟨round4 q, procName, .compiled re m⟩) := by
      rintro w ⟨e, n, he, ha⟩
      cases he
      rcases ha with ha | ha <;> cases ha
    cases h with
    | cut => exact .inl ⟨by simpa using no _, by simp⟩
    | yield hw h =>
      obtain ⟨o, rest, hl, ho, hn, h⟩ := hfin (h1.same (sameBook_private _ _ hw)) h
      refine .inr ⟨[_], o, rest, by rw [hl]; rfl, ho, fun x hx => ?_, h⟩
      rcases List.mem_append.1 hx with hx | hx
      · rw [List.mem_singleton.1 hx]; exact no _
      · exact hn x hx

/-- What the end of a cycle does to the record. -/
theorem test_book (C : Cfg) (n : String) (rule : CRule) (q : ℚ) (w : Mach) {l : List (Mach × YV)} {e : GEnd Mach Unit}
    (h : Runs Private (genTest C n rule q w) l e) :
    ((∀ x ∈ l, ¬ IsOutcome x) ∧ ∀ w', e ≠ .ret w' ()) ∨
    (∃ x, l = [x] ∧ x.2 = .ev ⟨round4 q, procName, .stopped n⟩ ∧ SameBook w x.1 ∧ ∀ w', e = .ret w' () → SameBook w w') ∨
    (∃ mid o rest, l = mid ++ o :: rest ∧ o.2 = .ev ⟨round4 q, procName, .fired n⟩ ∧ (∀ x ∈ mid ++ rest, ¬ IsOutcome x) ∧
      AfterFiring C n q w o.1 ∧ ∀ w', e = .ret w' () → AfterFiring C n q w w') := by
  unfold genTest at h
  simp only [genM_bind_apply] at h
  cases hl : rule.body.lhs with
  | error x =>
    rw [hl] at h
    left
    cases h
    exact ⟨by simp, by simp⟩
  | ok lhs =>
  simp only [genM_bind_apply, hl, genM_lift_ok, out_bind_ret] at h
  cases ht : lhsTest C.P.H w.faces lhs w.bv with
  | error x =>
    rw [genM_act_error (w' := w) (e := x) (by rw [ht])] at h
    left
    cases h
    exact ⟨by simp, by simp⟩
  | ok r =>
  rw [genM_act_ok (w' := w) (a := r) (by rw [ht])] at h
  simp only [out_bind_ret] at h
  cases r with
  | none =>
    right
    left
    simp only [genM_event_apply] at h
    cases h with
    | cut => exact ⟨_, rfl, rfl, sameBook_refl w, by simp⟩
    | yield hw h =>
      cases h
      exact ⟨_, rfl, rfl, sameBook_refl w, fun w' h => by cases h; exact sameBook_private _ _ hw⟩
  | some bv =>
    simp only [genM_bind_apply, genM_set_apply, out_bind_ret] at h
    have hs : SameBook w { w with bv := bv } := ⟨rfl, rfl⟩
    rcases fire_book C n rule q { w with bv := bv } h with h | ⟨mid, o, rest, hl, ho, hn, ha, hw⟩
    · exact .inl h
    · exact .inr (.inr ⟨mid, o, rest, hl, ho, hn, AfterFiring.before hs ha, fun w' h' => AfterFiring.before hs (hw w' h')⟩)

/-- What a cycle does to the record. -/
theorem cycle_book (C : Cfg) (t : ℚ) (w : Mach) (l : List (Mach × YV)) (e : GEnd Mach Unit)
    (hr : Runs Private (genProcedural C t w) l e) :
    ((∀ x ∈ l, ¬ IsOutcome x) ∧ ∀ w', e = .ret w' () → SameBook w w') ∨
    (∃ n pre x rest, l = pre ++ x :: rest ∧ x.2 = .ev ⟨round4 (t + C.ruleFiring), procName, .stopped n⟩ ∧ (∀ y ∈ pre ++ rest, ¬ IsOutcome y) ∧
      SameBook { w with used := noteUse n t w.used } x.1 ∧ ∀ w', e = .ret w' () → SameBook { w with used := noteUse n t w.used } w') ∨
    (∃ n pre o rest, l = pre ++ o :: rest ∧ o.2 = .ev ⟨round4 (t + C.ruleFiring), procName, .fired n⟩ ∧ (∀ y ∈ pre ++ rest, ¬ IsOutcome y) ∧
      AfterFiring C n (t + C.ruleFiring) { w with used := noteUse n t w.used } o.1 ∧
      ∀ w', e = .ret w' () → AfterFiring C n (t + C.ruleFiring) { w with used := noteUse n t w.used } w') := by
  have no : ∀ (w : Mach) (q : ℚ) (a : Act), (∀ n, a ≠ .fired n ∧ a ≠ .stopped n) → ¬ IsOutcome (w, .ev ⟨q, procName, a⟩) := by
    rintro w q a h ⟨e, n, he, ha⟩
    cases he
    exact ha.elim (h n).1 (h n).2
  have no' : ∀ (w : Mach), ¬ IsOutcome (w, .procs) := by
    rintro w ⟨e, n, he, _⟩
    cases he
  rw [genProcedural_eq] at hr
  cases hr with
  | cut => exact .inl ⟨by simpa using no _ _ _ (by simp), by simp⟩
  | @yield _ w1 _ _ l e hw hr =>
  have hbv1 : w1.bv = BV.init := hw.bv
  have hb1 : SameBook w w1 := ⟨hw.rules, hw.used⟩
  unfold afterConflict at hr
  rcases hsel : selectIn C w1 with ⟨w2, x | sel⟩
  · rw [genM_act_error hsel] at hr
    cases hr
    exact .inl ⟨by simpa using no _ _ _ (by simp), by simp⟩
  rw [genM_act_ok hsel] at hr
  obtain ⟨hb, hru, ho, hbv, hu, _⟩ := selectIn_cases C w1 w2 hbv1 _ hsel
  have hb2 : SameBook w w2 := sameBook_trans _ _ _ hb1 ⟨hru, hu⟩
  cases sel with
  | none =>
    left
    simp only [out_bind_ret] at hr
    cases hr with
    | cut => exact ⟨by simpa using ⟨no _ _ _ (by simp), no _ _ _ (by simp)⟩, by simp⟩
    | yield hw3 hr =>
      cases hr with
      | cut => exact ⟨by simpa using ⟨no _ _ _ (by simp), no _ _ _ (by simp), no' _⟩, by simp⟩
      | yield hw4 hr =>
        cases hr
        refine ⟨by simpa using ⟨no _ _ _ (by simp), no _ _ _ (by simp), no' _⟩, fun w' h => ?_⟩
        cases h
        exact sameBook_trans _ _ _ hb2 (sameBook_trans _ _ _ ⟨hw3.rules, hw3.used⟩ ⟨hw4.rules, hw4.used⟩)
  | some p =>
    obtain ⟨n, rule⟩ := p
    simp only [out_bind_ret] at hr
    cases hr with
    | cut => exact .inl ⟨by simpa using ⟨no _ _ _ (by simp), no _ _ _ (by simp)⟩, by simp⟩
    | @yield _ w3 _ _ l e hw3 hr =>
    cases hr with
    | cut => exact .inl ⟨by simpa using ⟨no _ _ _ (by simp), no _ _ _ (by simp), no _ _ _ (by simp)⟩, by simp⟩
    | @yield _ w4 _ _ l e hw4 hr =>
    have hb4 : SameBook { w with used := noteUse n t w.used } w4 := by
      refine ⟨hw4.rules.trans (hw3.rules.trans hb2.1), hw4.used.trans (hw3.used.trans ?_)⟩
      show noteUse n t w2.used = noteUse n t w.used
      rw [hb2.2]
    have pre3 : ∀ {a b c : Mach} {q1 q2 q3 : ℚ} (y : Mach × YV), (y = (a, .ev ⟨q1, procName, .conflict⟩) ∨ y = (b, .ev ⟨q2, procName, .selected n⟩) ∨
        y = (c, .ev ⟨q3, procName, .unknown⟩)) → ¬ IsOutcome y := by
      rintro a b c q1 q2 q3 y (rfl | rfl | rfl)
      · exact no _ _ (.conflict) (by simp)
      · exact no _ _ (.selected n) (by simp)
      · exact no _ _ (.unknown) (by simp)
    rcases runs_bind hr with ⟨w5, _, l1, l2, h1, h2, rfl⟩ | ⟨w5, x, h1, rfl⟩ | ⟨h1, rfl⟩
    · have hl2 : (∀ y ∈ l2, ¬ IsOutcome y) ∧ ∀ w', e = .ret w' () → SameBook w5 w' := by
        cases h2 with
        | cut => exact ⟨by simpa using no' _, by simp⟩
        | yield hw h2 =>
          cases h2
          exact ⟨by simpa using no' _, fun w' h => by cases h; exact sameBook_private _ _ hw⟩
      rcases test_book C n rule _ w4 h1 with ⟨_, h⟩ | ⟨x, rfl, hx, hbx, hw'⟩ | ⟨mid, o, rest, rfl, hx, hm, hbx, hw'⟩
      · exact absurd rfl (h w5)
      · refine .inr (.inl ⟨n, [_, _, _], x, l2, rfl, hx, fun y hy => ?_, sameBook_trans _ _ _ hb4 hbx, fun w' h =>
          sameBook_trans _ _ _ hb4 (sameBook_trans _ _ _ (hw' w5 rfl) (hl2.2 w' h))⟩)
        rcases List.mem_append.1 hy with hy | hy
        · exact pre3 y (by simpa using hy)
        · exact hl2.1 y hy
      · refine .inr (.inr ⟨n, _ :: _ :: _ :: mid, o, rest ++ l2, by rw [List.append_assoc]; rfl, hx, fun y hy => ?_, AfterFiring.before hb4 hbx, fun w' h =>
          AfterFiring.before hb4 ((hw' w5 rfl).same (hl2.2 w' h))⟩)
        simp only [List.mem_append, List.mem_cons] at hy hm
        rcases hy with (hy | hy | hy | hy) | hy | hy
        · rw [hy]; exact no _ _ _ (by simp)
        · rw [hy]; exact no _ _ _ (by simp)
        · rw [hy]; exact no _ _ _ (by simp)
        · exact hm y (.inl hy)
        · exact hm y (.inr hy)
        · exact hl2.1 y hy
    · rcases test_book C n rule _ w4 h1 with ⟨hn, _⟩ | ⟨x, rfl, hx, hbx, hw'⟩ | ⟨mid, o, rest, rfl, hx, hm, hbx, hw'⟩
      · refine .inl ⟨fun y hy => ?_, by simp⟩
        rcases List.mem_cons.1 hy with h | hy
        · rw [h]; exact no _ _ _ (by simp)
        rcases List.mem_cons.1 hy with h | hy
        · rw [h]; exact no _ _ _ (by simp)
        rcases List.mem_cons.1 hy with h | hy
        · rw [h]; exact no _ _ _ (by simp)
        · exact hn y hy
      · refine .inr (.inl ⟨n, [_, _, _], x, [], rfl, hx, fun y hy => ?_, sameBook_trans _ _ _ hb4 hbx, by simp⟩)
        exact pre3 y (by simpa using hy)
      · refine .inr (.inr ⟨n, _ :: _ :: _ :: mid, o, rest, rfl, hx, fun y hy => ?_, AfterFiring.before hb4 hbx, by simp⟩)
        simp only [List.mem_append, List.mem_cons] at hy hm
        rcases hy with (hy | hy | hy | hy) | hy
        · rw [hy]; exact no _ _ _ (by simp)
        · rw [hy]; exact no _ _ _ (by simp)
        · rw [hy]; exact no _ _ _ (by simp)
        · exact hm y (.inl hy)
        · exact hm y (.inr hy)
    · rcases test_book C n rule _ w4 h1 with ⟨hn, _⟩ | ⟨x, rfl, hx, hbx, hw'⟩ | ⟨mid, o, rest, rfl, hx, hm, hbx, hw'⟩
      · refine .inl ⟨fun y hy => ?_, by simp⟩
        rcases List.mem_cons.1 hy with h | hy
        · rw [h]; exact no _ _ _ (by simp)
        rcases List.mem_cons.1 hy with h | hy
        · rw [h]; exact no _ _ _ (by simp)
        rcases List.mem_cons.1 hy with h | hy
        · rw [h]; exact no _ _ _ (by simp)
        · exact hn y hy
      · refine .inr (.inl ⟨n, [_, _, _], x, [], rfl, hx, fun y hy => ?_, sameBook_trans _ _ _ hb4 hbx, by simp⟩)
        exact pre3 y (by simpa using hy)
      · refine .inr (.inr ⟨n, _ :: _ :: _ :: mid, o, rest, rfl, hx, fun y hy => ?_, AfterFiring.before hb4 hbx, by simp⟩)
        simp only [List.mem_append, List.mem_cons] at hy hm
        rcases hy with (hy | hy | hy | hy) | hy
        · rw [hy]; exact no _ _ _ (by simp)
        · rw [hy]; exact no _ _ _ (by simp)
        · rw [hy]; exact no _ _ _ (by simp)
        · exact hm y (.inl hy)
        · exact hm y (.inr hy)

/-! ## The ledger -/

theorem ledger_noteUse (w : Mach) (n : String) (t : ℚ) : ledgerOf { w with used := noteUse n t w.used } = (ledgerOf w).use n t := by
  unfold ledgerOf Ledger.use
  simp only [C33_record]

theorem nodup_noteUse {n : String} {t : ℚ} {u : Used} (h : (u.map Prod.fst).Nodup) : ((noteUse n t u).map Prod.fst).Nodup := nodup_aset _ _ _ h

theorem ledger_reward (C : Cfg) (hl : C.up.utilityLearning = true) (n : String) (s : ℚ) (w : Mach) (hu : (w.used.map Prod.fst).Nodup) (stops : Bool) :
    LedgerStep stops C.up.alpha C.ruleFiring s (.fired n) (ledgerOf w)
      (ledgerOf (rewardStep C n (s + C.ruleFiring) { w with used := noteUse n s w.used })) := by
  unfold rewardStep
  rw [if_pos hl]
  cases hr : (alook n w.rules).bind CRule.reward with
  | none =>
    simp only [hr]
    rw [ledger_noteUse]
    exact .fired hr
  | some r =>
    simp only [hr]
    refine .rewarded (r := r) hr ?_
    have key := fun m => modifyUtilitiesC_alook C.up.alpha (s + C.ruleFiring) r m _ (nodup_noteUse (n := n) (t := s) hu) w.rules
    refine ⟨fun m hm => ?_, fun m u hm => ?_, ?_, fun m => rfl⟩
    · simp only [ledgerOf, Ledger.use, Option.map_eq_none_iff] at hm ⊢
      rw [key, hm]; rfl
    · simp only [ledgerOf, Ledger.use, Option.map_eq_some_iff] at hm ⊢
      obtain ⟨rule, hm, rfl⟩ := hm
      refine ⟨_, ⟨_, by rw [key, hm]; rfl, rfl⟩, ?_⟩
      rw [C33_record]
      exact learnSteps_exist ..
    · funext m
      simp only [ledgerOf, Ledger.use]
      rw [key]
      cases alook m w.rules <;> rfl

theorem compiledName_pair (r1 r2 : String) (i : ℕ) : PairName r1 (compiledName r1 r2 i) := by
  unfold compiledName
  split
  · exact ⟨r2, " " ++ toString i, by simp only [String.append_assoc]⟩
  · exact ⟨r2, "", by simp⟩

/-- What firing does to the ledger, when rules may be compiled. -/
theorem ledger_compiled (C : Cfg) (hl : C.up.utilityLearning = true) (n : String) (q : ℚ) (w w' : Mach) (h : AfterFiring C n q w w') :
    ledgerOf w' = ledgerOf (rewardStep C n q w) ∨ C.compilation = true ∧ Compiles C.up.alpha (ledgerOf (rewardStep C n q w)) (ledgerOf w') := by
  obtain ⟨hu, hr | ⟨hc, reg, r1, r2, sv, bufs, hr⟩⟩ := h
  · exact .inl (sameBook_ledger ⟨hr, hu⟩)
  generalize rewardStep C n q w = v at hu hr ⊢
  rcases compileRules_cases C.P reg C.up v.rules r1 r2 sv bufs with ⟨_, h⟩ | ⟨_, _, h⟩ | ⟨x1, x2, new, h1, h2, hn, hloop⟩
  · exact .inl (sameBook_ledger ⟨hr.trans h, hu⟩)
  · exact .inl (sameBook_ledger ⟨hr.trans h, hu⟩)
  obtain ⟨i, _, _, hcase⟩ := nameLoop_pair hloop
  rcases hcase with ⟨ha, h, _⟩ | ⟨r, ha, ⟨_, _, h, _⟩ | ⟨_, h, _⟩⟩
  · refine .inr ⟨hc, ?_⟩
    have e : ledgerOf w' = { ledgerOf v with utility := fun x => if x = compiledName r1 r2 i then some 0 else (ledgerOf v).utility x } := by
      unfold ledgerOf
      congr 1
      · funext x
        rw [hr, h, alook_aset]
        split <;> rfl
      · funext x
        rw [hr, h, alook_aset]
        split
        · next e => subst e; show _ = (alook _ v.rules).bind CRule.reward; rw [ha]; rfl
        · rfl
      · funext x
        rw [hu]
    rw [e]
    exact .added (compiledName_pair r1 r2 i) (by simp only [ledgerOf, ha, Option.map_none])
  · exact .inl (sameBook_ledger ⟨hr.trans h, hu⟩)
  · refine .inr ⟨hc, ?_⟩
    unfold relearn at h
    rw [if_pos hl] at h
    have e2 : IsRounded ((1 - C.up.alpha) * r.utility + C.up.alpha * x1.utility) (round4 (r.utility + C.up.alpha * (x1.utility - r.utility))) :=
      isRounded_iff.2 (by congr 1; ring)
    generalize round4 (r.utility + C.up.alpha * (x1.utility - r.utility)) = z at h e2
    have e : ledgerOf w' = { ledgerOf v with utility := fun x => if x = compiledName r1 r2 i then some z else (ledgerOf v).utility x } := by
      unfold ledgerOf
      congr 1
      · funext x
        rw [hr, h, alook_aset]
        split <;> rfl
      · funext x
        rw [hr, h, alook_aset]
        split
        · next e => subst e; show _ = (alook _ v.rules).bind CRule.reward; rw [ha]; rfl
        · rfl
      · funext x
        rw [hu]
    rw [e]
    exact .again (compiledName_pair r1 r2 i) (by simp only [ledgerOf, ha, Option.map_some]) (by simp only [ledgerOf, h1, Option.map_some]) e2

/-- The whole of C33: over any history of cycles, from any state of the model, utilities change as prescribed, each rule being
updated once for each time it fired since the last reward. -/
def C33_full : Prop := ∀ (C : Cfg), C.up.utilityLearning = true → C.compilation = false → ∀ (h : List (ℚ × CycleEnd)) (w w' : Mach),
  (w.used.map Prod.fst).Nodup → History C h w w' → LedgerSteps false C.up.alpha C.ruleFiring h (ledgerOf w) (ledgerOf w')

/-- In one cycle, also one that does not end, at the moment a rule is reported to have fired all utilities have been updated, and the
record is empty if the rule has a reward. -/
theorem C33_firing (C : Cfg) (hl : C.up.utilityLearning = true) (s : ℚ) (w : Mach) (hu : (w.used.map Prod.fst).Nodup)
    (l : List (Mach × YV)) (e : GEnd Mach Unit) (hr : Runs Private (genProcedural C s w) l e) (x : Mach × YV) (hx : x ∈ l) (n : String) (ev : Verif.Ev)
    (h1 : x.2 = .ev ev) (h2 : ev.act = .fired n) : CompilingStep false C.up.alpha C.ruleFiring s (.fired n) (ledgerOf w) (ledgerOf x.1) := by
  have hout : IsOutcome x := ⟨ev, n, h1, .inl h2⟩
  rcases cycle_book C s w l e hr with ⟨h, _⟩ | ⟨m, pre, y, rest, rfl, hy, hn, _⟩ | ⟨m, pre, y, rest, rfl, hy, hn, hb, _⟩
  · exact absurd hout (h x hx)
  · exfalso
    have : x = y := by
      rcases List.mem_append.1 hx with hx | hx
      · exact absurd hout (hn x (List.mem_append.2 (.inl hx)))
      · rcases List.mem_cons.1 hx with rfl | hx
        · rfl
        · exact absurd hout (hn x (List.mem_append.2 (.inr hx)))
    subst this
    rw [h1] at hy; cases hy; cases h2
  · have : x = y := by
      rcases List.mem_append.1 hx with hx | hx
      · exact absurd hout (hn x (List.mem_append.2 (.inl hx)))
      · rcases List.mem_cons.1 hx with rfl | hx
        · rfl
        · exact absurd hout (hn x (List.mem_append.2 (.inr hx)))
    subst this
    rw [h1] at hy; cases hy; cases h2
    rcases ledger_compiled C hl _ _ _ _ hb with e | ⟨_, e⟩
    · rw [e]
      exact .plain (ledger_reward C hl _ s w hu _)
    · exact .compiled (ledger_reward C hl _ s w hu _) e

theorem nodup_reward {C : Cfg} {n : String} {q : ℚ} {w : Mach} (hu : (w.used.map Prod.fst).Nodup) : ((rewardStep C n q w).used.map Prod.fst).Nodup := by
  unfold rewardStep
  split
  · split
    · exact List.nodup_nil
    · exact hu
  · exact hu

/-- One complete cycle. -/
theorem cycle_ledger (C : Cfg) (hl : C.up.utilityLearning = true) (s : ℚ) (w w1 : Mach) (hu : (w.used.map Prod.fst).Nodup)
    (l : List (Mach × YV)) (o : CycleEnd) (hr : Runs Private (genProcedural C s w) l (.ret w1 ())) (ho : EndsAs l o) :
    (LedgerStep true C.up.alpha C.ruleFiring s o (ledgerOf w) (ledgerOf w1) ∨
      C.compilation = true ∧ CompilingStep true C.up.alpha C.ruleFiring s o (ledgerOf w) (ledgerOf w1)) ∧ (w1.used.map Prod.fst).Nodup := by
  have only : ∀ {pre y rest} {x : Mach × YV}, x ∈ pre ++ y :: rest → (∀ z ∈ pre ++ rest, ¬ IsOutcome z) → IsOutcome x → x = y := by
    intro pre y rest x hx hn hout
    rcases List.mem_append.1 hx with hx | hx
    · exact absurd hout (hn x (List.mem_append.2 (.inl hx)))
    · rcases List.mem_cons.1 hx with rfl | hx
      · rfl
      · exact absurd hout (hn x (List.mem_append.2 (.inr hx)))
  rcases cycle_book C s w l _ hr with ⟨h, hb⟩ | ⟨m, pre, y, rest, rfl, hy, hn, _, hb⟩ | ⟨m, pre, y, rest, rfl, hy, hn, _, hb⟩
  · have hb := hb w1 rfl
    rw [sameBook_ledger hb]
    refine ⟨.inl ?_, hb.2 ▸ hu⟩
    cases o with
    | nothing => exact .nothing
    | stopped n => obtain ⟨x, hx, e, he, ha⟩ := ho; exact absurd ⟨e, n, he, .inr ha⟩ (h x hx)
    | fired n => obtain ⟨x, hx, e, he, ha⟩ := ho; exact absurd ⟨e, n, he, .inl ha⟩ (h x hx)
  · have hb := hb w1 rfl
    rw [sameBook_ledger hb]
    refine ⟨.inl ?_, hb.2 ▸ nodup_noteUse hu⟩
    rw [ledger_noteUse]
    cases o with
    | nothing => exact absurd ⟨_, m, hy, .inr rfl⟩ (ho y (by simp))
    | stopped n =>
      obtain ⟨x, hx, e, he, ha⟩ := ho
      have := only hx hn ⟨e, n, he, .inr ha⟩
      subst this
      rw [he] at hy; cases hy; cases ha
      exact .stopped
    | fired n =>
      obtain ⟨x, hx, e, he, ha⟩ := ho
      have := only hx hn ⟨e, n, he, .inl ha⟩
      subst this
      rw [he] at hy; cases hy; cases ha
  · have hb := hb w1 rfl
    refine ⟨?_, hb.1 ▸ nodup_reward (nodup_noteUse hu)⟩
    cases o with
    | nothing => exact absurd ⟨_, m, hy, .inl rfl⟩ (ho y (by simp))
    | stopped n =>
      obtain ⟨x, hx, e, he, ha⟩ := ho
      have := only hx hn ⟨e, n, he, .inr ha⟩
      subst this
      rw [he] at hy; cases hy; cases ha
    | fired n =>
      obtain ⟨x, hx, e, he, ha⟩ := ho
      have := only hx hn ⟨e, n, he, .inl ha⟩
      subst this
      rw [he] at hy; cases hy; cases ha
      rcases ledger_compiled C hl _ _ _ _ hb with e | ⟨hc, e⟩
      · rw [e]
        exact .inl (ledger_reward C hl _ s w hu _)
      · exact .inr ⟨hc, .compiled (ledger_reward C hl _ s w hu _) e⟩

/-- C33 over any history, also when rules are compiled: a compiled rule begins with utility 0, and when it is made again its utility moves
towards that of the first of its two rules; other utilities change as when rules are not compiled. -/
theorem C33_compiled (C : Cfg) (hl : C.up.utilityLearning = true) (h : List (ℚ × CycleEnd)) (w w' : Mach)
    (hu : (w.used.map Prod.fst).Nodup) (hh : History C h w w') : CompilingSteps true C.up.alpha C.ruleFiring h (ledgerOf w) (ledgerOf w') := by
  induction hh with
  | nil => exact .nil
  | cons hr ho hp _ ih =>
    obtain ⟨h1, h2⟩ := cycle_ledger C hl _ _ _ hu _ _ hr ho
    have hb := sameBook_private _ _ hp
    refine .cons (h1.elim .plain And.right) ?_
    rw [← sameBook_ledger hb]
    exact ih (hb.2 ▸ h2)

/-- C33 over any history. Missing: a rule that was selected but stopped from firing counts as used (`C33_refuted`). -/
theorem C33_partial (C : Cfg) (hl : C.up.utilityLearning = true) (hc : C.compilation = false) (h : List (ℚ × CycleEnd)) (w w' : Mach)
    (hu : (w.used.map Prod.fst).Nodup) (hh : History C h w w') : LedgerSteps true C.up.alpha C.ruleFiring h (ledgerOf w) (ledgerOf w') := by
  induction hh with
  | nil => exact .nil
  | cons hr ho hp _ ih =>
    obtain ⟨h1, h2⟩ := cycle_ledger C hl _ _ _ hu _ _ hr ho
    have hb := sameBook_private _ _ hp
    refine .cons (h1.resolve_right fun h => by rw [hc] at h; cases h.1) ?_
    rw [← sameBook_ledger hb]
    exact ih (hb.2 ▸ h2)

/-- C33 over histories in which no rule is stopped from firing. -/
theorem C33_unstopped (C : Cfg) (hl : C.up.utilityLearning = true) (hc : C.compilation = false) (h : List (ℚ × CycleEnd)) (w w' : Mach)
    (hu : (w.used.map Prod.fst).Nodup) (hh : History C h w w') (hn : ∀ p ∈ h, ∀ n, p.2 ≠ .stopped n) :
    LedgerSteps false C.up.alpha C.ruleFiring h (ledgerOf w) (ledgerOf w') := by
  have key := C33_partial C hl hc h w w' hu hh
  clear hh
  generalize ledgerOf w = b at key
  generalize ledgerOf w' = b' at key
  induction key with
  | nil => exact .nil
  | cons h1 _ ih =>
    refine .cons ?_ (ih fun p hp => hn p (.tail _ hp))
    cases h1 with
    | nothing => exact .nothing
    | stopped => exact absurd rfl (hn _ (.head _) _)
    | fired h => exact .fired h
    | rewarded h1 h2 => exact .rewarded h1 h2

/-! ## Example -/

/-- A rule that fires when something has been retrieved, with a reward, and one that fires when nothing has been retrieved. -/
def exLearner : Mach := { exMach exCompReg (exCycBufs []) with
                          rules := [("r1", ⟨⟨.ok [(⟨'?', "retrieval"⟩, .dict [("buffer", "full")])], .ok []⟩, 0, some 10⟩), ("r2", ⟨exFailed, 0, Option.none⟩)],
                          ordered := ["r2", "r1"] }

/-- The same after the second rule has been stopped from firing. -/
def exLearner2 : Mach := { exLearner with bufs := (exArrives exLearner).bufs, used := noteUse "r2" 0 [], usedName := some "r2" }

/-- Learning is on, harvesting is not. -/
noncomputable def exLearns (H : PyHash) : Cfg := { exCfg (exPy H) with up := ⟨false, 0, true, 1 / 5⟩, strict := false }

/-- A history: the second rule is stopped because a chunk arrives, then the first one fires. -/
theorem exLearner_history (H : PyHash) : ∃ w', History (exLearns H) [(0, .stopped "r2"), (1 / 20, .fired "r1")] exLearner w' := by
  let f : ℕ → Mach → Mach := fun i w => if i = 1 then exArrives w else w
  have hf : ∀ i w, Private w (f i w) := fun i w => by
    show Private w (if i = 1 then exArrives w else w)
    split
    · exact exArrives_private w
    · exact private_refl w
  have h1 := runs_under hf (genProcedural (exLearns H) 0 exLearner) 0
  have e1 : ∃ w1, ((genProcedural (exLearns H) 0 exLearner).under f 0).2 = .ret w1 () ∧ Private w1 exLearner2 := ⟨_, rfl, ⟨rfl, rfl, rfl, rfl, rfl, rfl, rfl, rfl⟩⟩
  have a2 : actsOf (genProcedural (exLearns H) (1 / 20) exLearner2).solo.1 =
      [some .conflict, some (.selected "r1"), some .unknown, some (.fired "r1"), Option.none] := rfl
  have e2 : ∃ w2, (genProcedural (exLearns H) (1 / 20) exLearner2).solo.2 = .ret w2 () := ⟨_, rfl⟩
  obtain ⟨w1, e1, hp⟩ := e1
  obtain ⟨w2, e2⟩ := e2
  have h2 := runs_solo private_refl (genProcedural (exLearns H) (1 / 20) exLearner2)
  have a1 : actsOf ((genProcedural (exLearns H) 0 exLearner).under f 0).1 =
      [some .conflict, some (.selected "r2"), some .unknown, some (.stopped "r2"), Option.none] := rfl
  rw [e1] at h1
  rw [e2] at h2
  have get : ∀ (l : List (Mach × YV)) (a : Act), some a ∈ actsOf l → ∃ x ∈ l, ∃ e, x.2 = .ev e ∧ e.act = a := by
    intro l a ha
    simp only [actsOf, List.mem_map] at ha
    obtain ⟨x, hx, ha⟩ := ha
    refine ⟨x, hx, ?_⟩
    split at ha
    · next e he => exact ⟨e, he, Option.some.inj ha⟩
    · cases ha
  exact ⟨w2, .cons h1 (get _ _ (by rw [a1]; simp)) hp (.cons h2 (get _ _ (by rw [a2]; simp)) (private_refl _) .nil)⟩

/-- C33 is false: a rule that was selected but stopped from firing, and never fired, is rewarded later. -/
theorem C33_refuted : ¬ C33_full := by
  obtain ⟨H, _⟩ := exists_collisionFree
  intro h
  obtain ⟨w', hh⟩ := exLearner_history H
  have hu : (exLearner.used.map Prod.fst).Nodup := List.nodup_nil
  have h1 := h (exLearns H) rfl rfl _ _ _ hu hh
  have h2 := C33_partial (exLearns H) rfl rfl _ _ _ hu hh
  have u0 : (ledgerOf exLearner).utility "r2" = some 0 := rfl
  have p0 : (ledgerOf exLearner).pending = fun _ => [] := rfl
  have r0 : (ledgerOf exLearner).reward "r1" = some 10 := rfl
  generalize ledgerOf exLearner = A at h1 h2 u0 p0 r0
  generalize ledgerOf w' = B at h1 h2
  have z1 : B.utility "r2" = some 0 := by
    rcases h1 with _ | ⟨h1, h1'⟩
    cases h1
    rcases h1' with _ | ⟨h1', h1''⟩
    cases h1''
    cases h1' with
    | fired hr => simp [r0] at hr
    | rewarded hr hs =>
      obtain ⟨u', hu', hl⟩ := hs.steps "r2" 0 u0
      simp only [Ledger.use, Bool.false_eq_true, if_false, p0] at hl
      simp at hl
      cases hl
      exact hu'
  have z2 : ∃ u', B.utility "r2" = some u' ∧ LearnSteps (1 / 5) 10 (1 / 20 + 1 / 20) [0] 0 u' := by
    rcases h2 with _ | ⟨h1, h1'⟩
    cases h1
    rcases h1' with _ | ⟨h1', h1''⟩
    cases h1''
    cases h1' with
    | fired hr => simp [Ledger.use, r0] at hr
    | rewarded hr hs =>
      simp only [if_true, Ledger.use, r0] at hr
      cases hr
      obtain ⟨u', hu', hl⟩ := hs.steps "r2" 0 u0
      simp only [Ledger.use, p0] at hl
      exact ⟨u', hu', hl⟩
  obtain ⟨u', hu', hl⟩ := z2
  rw [z1] at hu'
  cases hu'
  cases hl with
  | cons hs hn =>
    cases hn
    obtain ⟨k, _, hk, _⟩ := hs
    norm_num [abs_le] at hk

/-- The hypotheses of C33 are met by this history. -/
example (H : PyHash) : (exLearns H).up.utilityLearning = true ∧ (exLearns H).compilation = false ∧ (exLearner.used.map Prod.fst).Nodup ∧
    ∃ w', History (exLearns H) [(0, .stopped "r2"), (1 / 20, .fired "r1")] exLearner w' := ⟨rfl, rfl, List.nodup_nil, exLearner_history H⟩

end Verif.Props
