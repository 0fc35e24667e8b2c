import Verif.Lemmas.Outcome
import Verif.Props.Waiting
/-! # Property C30: the outcome of rules in simulations; property C60: what the rules announce -/
namespace Verif.Props
open Verif Verif.Spec

variable {C : Cfg} {w : Mach} {args : Option EnvArgs} {t0 : ℚ} {s s' : Sim}

theorem cyclesBy_of_due {R : ℚ → ℚ → Prop} (hR : ∀ t u, FiresAt C.ruleFiring t u → R t u) (hrf : 0 ≤ C.ruleFiring) (h : Unraised C w args t0 s) :
    CyclesBy R s.now (timedReports s.trace) := by
  obtain ⟨_, st, c, hr⟩ := fine_reachable (reachable_unraised h)
  have hdue := due_unraised hrf h st
  obtain ⟨done, rest, h1, h2, h3⟩ := stage_prefix _ (fun a ha => by simpa using (List.mem_filter.1 ha).2) st hr.stage
  refine ⟨done, rest, h1, fun x hx => timedCycle_mono hR (h2 x hx), ?_⟩
  cases st with
  | idle => exact .inl h3
  | conf t => obtain ⟨_, rfl⟩ := h3; exact .inr (.conflict (hdue _ hr.stage rfl))
  | sel n t => obtain ⟨hg, rfl⟩ := h3; exact .inr (.selected n (hR _ _ ⟨hg, rfl⟩) (hdue _ hr.stage rfl))
  | comp n t => obtain ⟨hg, re, m, rfl⟩ := h3; exact .inr (.compiled n re m (hR _ _ ⟨hg, rfl⟩) (hdue _ hr.stage rfl))

/-- C30 in simulations: as long as no exception has been raised, every rule that was selected has been fired or stopped from firing,
`rule_firing` later (to four decimals), by the time the clock has gone past. -/
theorem C30_outcome (hrf : 0 ≤ C.ruleFiring) (h : Unraised C w args t0 s) : CyclesBy (fun t u => IsRounded (t + C.ruleFiring) u) s.now (timedReports s.trace) :=
  cyclesBy_of_due (fun t u hu => by rw [hu.2]; exact round4_isRounded _) hrf h

/-- With a `rule_firing` of at most four decimals the time is exact. -/
theorem C30_outcome_exact (hrf : 0 ≤ C.ruleFiring) (hg : OnGrid C.ruleFiring) (h : Unraised C w args t0 s) :
    CyclesBy (fun t u => u = t + C.ruleFiring) s.now (timedReports s.trace) :=
  cyclesBy_of_due (fun t u hu => by rw [hu.2, ← hu.1]; exact round4_onGrid (onGrid_add (onGrid_round4 t) hg)) hrf h

/-- When nothing is left to do, every rule that was selected has been fired or stopped. -/
theorem C30_settled (hrf : 0 ≤ C.ruleFiring) (h : Unraised C w args t0 s) (he : s.step C = .empty) :
    ∃ done : List (List (ℚ × Act)), timedReports s.trace = done.flatten ∧ ∀ x ∈ done, TimedCycle (fun t u => IsRounded (t + C.ruleFiring) u) x := by
  have hr := reachable_unraised h
  have hf := fine_reachable hr
  obtain ⟨st, c, hc⟩ := hf.2
  have hq : s.queue = [] := by
    rcases step_cases he with ⟨_, hq⟩ | ⟨_, _, _, ⟨_, h⟩ | ⟨_, h | ⟨_, h⟩⟩⟩
    · exact hq
    · cases h
    · cases h
    · cases h
  have hidle : st = .idle := by
    have no : ∀ d, st.due C.ruleFiring ≠ some d := fun d hd => by
      obtain ⟨en, q, h1, _⟩ := head_due hf (awake_reachable hr) (tame_unraised h) hc.stage hd (due_unraised hrf h st d hc.stage hd)
      rw [hq] at h1; cases h1
    cases st with
    | idle => rfl
    | conf t => exact absurd rfl (no _)
    | sel n t => exact absurd rfl (no _)
    | comp n t => exact absurd rfl (no _)
  subst hidle
  obtain ⟨done, rest, h1, h2, h3⟩ := stage_prefix _ (fun a ha => by simpa using (List.mem_filter.1 ha).2) _ hc.stage
  obtain rfl : rest = [] := h3
  exact ⟨done, by simpa using h1, fun x hx => timedCycle_mono (fun t u hu => by rw [hu.2]; exact round4_isRounded _) (h2 x hx)⟩

theorem unraised_steps {n : ℕ} (hu : Unraised C w args t0 s) (h : stepsOf C n s = .ok s') : Unraised C w args t0 s' := by
  induction n generalizing s with
  | zero => cases h; exact hu
  | succ n ih =>
    rw [stepsOf_succ] at h
    cases hs : s.step C with
    | ok s2 => rw [hs] at h; exact ih (hu.step hs) h
    | stopped s2 => rw [hs] at h; cases h
    | raised s2 x => rw [hs] at h; cases h
    | empty => rw [hs] at h; cases h

/-- Calls of `run` that come to their end lead to such states. -/
theorem unraised_runCall {t : ℚ} (h : Unraised C w args t0 s) (hr : RunCall C s t s' (.ok ())) : Unraised C w args t0 s' := by
  have key : ∀ {s s' : Sim} {r : Except PyErr Unit}, RunsOn C s s' r → r = .ok () → Unraised C w args t0 s → Unraised C w args t0 s' := by
    intro s s' r hr
    induction hr with
    | stopped hs => intro _ h; exact h.stopped hs
    | raised hs => intro h; cases h
    | more hs _ ih => intro hr h; exact ih hr (h.step hs)
  cases hr with
  | ended h1 h2 h3 =>
    have h4 := h.stop t
    rw [h1] at h4
    have h5 := (key h2 rfl h4).compile
    rw [h3] at h5
    exact h5

/-- C30, for calls of `run`. When calls of `run` have come to their end, one after the other, every rule that was selected has been fired or
stopped from firing, unless the time for this is that of the end of the last call, or later. -/
theorem C30_run {ts : List ℚ} (hrf : 0 ≤ C.ruleFiring) (h : RunAll C (Sim.init w args t0) ts s) :
    CyclesBy (fun t u => IsRounded (t + C.ruleFiring) u) s.now (timedReports s.trace) := by
  have key : ∀ {s s' : Sim} {ts : List ℚ}, RunAll C s ts s' → Unraised C w args t0 s → Unraised C w args t0 s' := by
    intro s s' ts hr
    induction hr with
    | none => exact id
    | more h1 _ ih => exact fun h => ih (unraised_runCall h h1)
  exact C30_outcome hrf (key h .init)

/-- In the example, after 12 steps a rule is selected, and its firing is not reported yet; the clock has not moved. -/
theorem ex_open : ∃ s n, Unraised exC exPresser exEnvArgs 0 s ∧ s.now = 0 ∧ timedReports s.trace = [(0, .conflict), (0, .selected n)] := by
  have h : (match stepsOf exC 12 exSim with | .ok s => some (s.now, (timedReports s.trace).map (fun x => (x.1, x.2.kind))) | _ => Option.none) =
      some (0, [(0, .conflict), (0, .selected)]) := by decide +kernel
  cases hs : stepsOf exC 12 exSim with
  | ok s =>
    rw [hs] at h
    simp only [Option.some.injEq, Prod.mk.injEq] at h
    obtain ⟨h1, h2⟩ := h
    have hu : Unraised exC exPresser exEnvArgs 0 s := unraised_steps .init hs
    generalize hl : timedReports s.trace = l at h2
    rcases l with _ | ⟨⟨a, x⟩, _ | ⟨⟨b, y⟩, _ | ⟨z, r⟩⟩⟩ <;> simp at h2
    obtain ⟨⟨rfl, hx⟩, rfl, hy⟩ := h2
    cases x <;> cases hx
    cases y <;> cases hy
    exact ⟨s, _, hu, h1, hl⟩
  | stopped s => rw [hs] at h; cases h
  | raised s x => rw [hs] at h; cases h
  | empty => rw [hs] at h; cases h

/-- In this state the rule is to fire at 50 ms. -/
example : ∃ s, Unraised exC exPresser exEnvArgs 0 s ∧ CyclesBy (fun t u => u = t + 1 / 20) s.now (timedReports s.trace) ∧ timedReports s.trace ≠ [] := by
  obtain ⟨s, n, hu, _, ht⟩ := ex_open
  exact ⟨s, hu, C30_outcome_exact (C := exC) (by show (0 : ℚ) ≤ 1 / 20; norm_num) ⟨500, by show (1 / 20 : ℚ) = _; norm_num⟩ hu, by rw [ht]; simp⟩

/-! ## C60 for rules -/

/-- The process that has announced a report about rules is never interrupted. -/
theorem C60_uninterrupted {p : ℕ} {e : Verif.Ev} (h : Reachable C w args t0 s) (ha : Announced s p e) (hc : Cyclic e.act) : ¬ Interrupts s p := by
  obtain ⟨_, st, c, hr⟩ := fine_reachable h
  rintro ⟨en, q, _, l, hl, hm⟩
  have hmeek : Meek s p := (tame_reachable h).safe en.ev (.interrupt p) (by unfold Sim.cbs; rw [hl]; exact hm)
  have hp : p = c := by
    by_contra hne
    rcases ha with ⟨n, k, ha⟩ | ha
    · exact (hr.mods p _ ha hne).1 hc
    · exact hr.mods p _ ha hne hc
  subst hp
  rcases ha with ⟨n, k, ha⟩ | ha
  · have := hmeek.2 _ ha
    rw [(hr.child _ ha).1] at this
    simp [Pt.own] at this
  · exact (hr.child _ ha).elim

/-- C60 for rules. What is announced about rules - that conflict is resolved, that a rule is selected, is fired or stopped - is reported at its
time, however the simulation goes on: by the time the clock has gone past, or nothing is left to do. -/
theorem C60_rules {p : ℕ} {e : Verif.Ev} (h : Reachable C w args t0 s) (ha : Announced s p e) (hc : Cyclic e.act) (hg : GoesOn C s s')
    (hn : e.time < s'.now ∨ s'.step C = .empty) : ∃ l, s'.trace = s.trace ++ l ∧ (e.time, e) ∈ l := by
  have hu : e.act ≠ .unknown := fun hu => by rw [hu] at hc; exact hc
  have key : Announced s' p e ∨ ∃ l, s'.trace = s.trace ++ l ∧ (e.time, e) ∈ l := by
    clear hn
    induction hg with
    | refl => exact .inl ha
    | @step s1 s2 hg hl ih =>
      have hr := reachable_goesOn h hg
      rcases ih with ih | ⟨l, h1, h2⟩
      · rcases (C60 hr ih).2.2 s2 hl with h1 | h1 | ⟨_, h1 | h1⟩
        · exact absurd h1 (C60_uninterrupted hr ih hc)
        · exact .inl h1
        · exact absurd h1 hu
        · obtain ⟨l, hl⟩ := C60_trace h hg
          exact .inr ⟨l ++ [(e.time, e)], by rw [h1, ← hl, List.append_assoc], by simp⟩
      · obtain ⟨l', hl'⟩ := C60_trace hr (.step (.refl s1) hl)
        exact .inr ⟨l ++ l', by rw [← hl', h1, List.append_assoc], List.mem_append_left _ h2⟩
    | @stop s1 t hg ih =>
      have hsame : (s1.setStop t).1.points = s1.points ∧ (s1.setStop t).1.trace = s1.trace := by unfold Sim.setStop; split <;> exact ⟨rfl, rfl⟩
      rcases ih with ih | h1
      · left; unfold Announced; rw [hsame.1]; exact ih
      · rw [hsame.2]; exact .inr h1
    | @compile s1 hg ih =>
      have hsame : (compileAtEnd C s1).1.points = s1.points ∧ (compileAtEnd C s1).1.trace = s1.trace := by
        unfold compileAtEnd
        split
        · split <;> exact ⟨rfl, rfl⟩
        · exact ⟨rfl, rfl⟩
      rcases ih with ih | h1
      · left; unfold Announced; rw [hsame.1]; exact ih
      · rw [hsame.2]; exact .inr h1
  rcases key with h1 | h1
  · have := C60 (reachable_goesOn h hg) h1
    rcases hn with hn | hn
    · exact absurd this.1 (not_le.2 hn)
    · exact absurd hn this.2.1
  · exact h1

/-- In the example, after 6 steps, it is announced that a rule is selected, at the time 0; 94 steps later the clock is at 400 ms. -/
theorem ex_announced_rule : ∃ s s' p e, Reachable exC exPresser exEnvArgs 0 s ∧ Announced s p e ∧ Cyclic e.act ∧ GoesOn exC s s' ∧ e.time < s'.now := by
  have h : (match stepsOf exC 6 exSim with
      | .ok s => some (((s.points 9).bind Pt.event).map (fun e => (e.time, e.act.kind)), (match stepsOf exC 94 s with | .ok s' => some s'.now | _ => Option.none))
      | _ => Option.none) = some (some (0, .selected), some (2 / 5)) := by decide +kernel
  cases hs : stepsOf exC 6 exSim with
  | ok s =>
    rw [hs] at h
    simp only [Option.some.injEq, Prod.mk.injEq, Option.map_eq_some_iff, Option.bind_eq_some_iff] at h
    obtain ⟨⟨e, ⟨pt, hp, he⟩, h1, h2⟩, h3⟩ := h
    cases hs' : stepsOf exC 94 s with
    | ok s' =>
      rw [hs'] at h3
      refine ⟨s, s', 9, e, stepsOf_ok .init hs, announced_iff.2 ⟨pt, hp, he⟩, ?_, goesOn_steps hs', ?_⟩
      · cases ha : e.act <;> rw [ha] at h2 <;> cases h2
        trivial
      · simp only [Option.some.injEq] at h3
        rw [h1, h3]; norm_num
    | stopped s => rw [hs'] at h3; cases h3
    | raised s x => rw [hs'] at h3; cases h3
    | empty => rw [hs'] at h3; cases h3
  | stopped s => rw [hs] at h; cases h
  | raised s x => rw [hs] at h; cases h
  | empty => rw [hs] at h; cases h

example : ∃ s s' : Sim, ∃ e : Verif.Ev, ∃ l, s'.trace = s.trace ++ l ∧ (e.time, e) ∈ l ∧ Cyclic e.act := by
  obtain ⟨s, s', p, e, hs, ha, hc, hg, hn⟩ := ex_announced_rule
  obtain ⟨l, h1, h2⟩ := C60_rules hs ha hc hg (.inl hn)
  exact ⟨s, s', e, l, h1, h2, hc⟩

end Verif.Props
