import Verif.Lemmas.SimRun
import Verif.Lemmas.ExSim
import Verif.Spec.Simulation
import Verif.Spec.Rounding
/-! # Properties C42, C43 and C46: simulations -/
namespace Verif.Props
open Verif Verif.Spec

variable {C : Cfg} {w : Mach} {args : Option EnvArgs} {t0 : ℚ} {s s' : Sim}

/-! ## Calls of `run` go through reachable states -/

theorem reachable_runsOn {r : Except PyErr Unit} (h : Reachable C w args t0 s) (hr : RunsOn C s s' r) : Reachable C w args t0 s' := by
  induction hr with
  | stopped hs => exact h.stopped hs
  | raised hs => exact h.raised hs
  | more hs _ ih => exact ih (h.step hs)

theorem reachable_runCall {t : ℚ} {r : Except PyErr Unit} (h : Reachable C w args t0 s) (hr : RunCall C s t s' r) : Reachable C w args t0 s' := by
  cases hr with
  | refused h1 => exact h.stop h1
  | failed h1 h2 => exact reachable_runsOn (h.stop h1) h2
  | ended h1 h2 h3 => exact (reachable_runsOn (h.stop h1) h2).compile h3

/-! ## C42 -/

/-- C42. However far a simulation has come, with whatever model, environment, initial time, interruptions, and even after exceptions:
events were reported when the clock showed their time, in order, at multiples of 0.1 ms. -/
theorem C42 (h : Reachable C w args t0 s) : InTime s.trace := by
  obtain ⟨h, _⟩ := fine_reachable h
  exact ⟨fun x hx => ⟨(h.trace x hx).1, (h.trace x hx).2.1⟩, h.order⟩

/-- The last report lies in the past, and a step never turns the clock back. -/
theorem C42_clock (h : Reachable C w args t0 s) :
    (∀ x ∈ s.trace, x.2.time ≤ s.now) ∧ ∀ s', s.step C = .ok s' → s.now ≤ s'.now := by
  obtain ⟨hi, hc⟩ := fine_reachable h
  refine ⟨fun x hx => (hi.trace x hx).2.2, fun s' hs => ?_⟩
  obtain ⟨_, en, hen, hn⟩ := (fine_step ⟨hi, hc⟩).1 s' hs
  rw [hn]; exact hi.ahead en hen

/-- A simulation where 24 events have been reported. -/
theorem ex_simulation : ∃ s, Reachable exC exPresser exEnvArgs 0 s ∧ s.trace.map (·.2.act.kind) =
    [.conflict, .starting, .selected, .fired, .command, .conflict, .noRule, .printed, .conflict, .noRule, .prepared, .conflict, .noRule, .initiated,
     .conflict, .noRule, .pressed, .conflict, .noRule, .finished, .conflict, .selected, .fired, .command] := by
  obtain ⟨s, hs, ht⟩ := kinds_ok exSim_kinds (by decide +kernel) (by simp) (by decide +kernel)
  exact ⟨s, stepsOf_ok .init hs, ht⟩

example : ∃ s, Reachable exC exPresser exEnvArgs 0 s ∧ s.trace.length = 24 ∧ InTime s.trace := by
  obtain ⟨s, hs, ht⟩ := ex_simulation
  exact ⟨s, hs, by simpa using congrArg List.length ht, C42 hs⟩

/-! ## C43 -/

theorem onGrid_add {a b : ℚ} (ha : OnGrid a) (hb : OnGrid b) : OnGrid (a + b) := by
  obtain ⟨i, rfl⟩ := ha
  obtain ⟨j, rfl⟩ := hb
  exact ⟨i + j, by push_cast; ring⟩

theorem timed_reachable (h : Reachable C w args t0 s) : TimedCycles (FiresAt C.ruleFiring) (timedReports s.trace) := by
  obtain ⟨_, st, c, hr⟩ := fine_reachable h
  refine cycles_of_stage (fun a ha => ?_) hr.stage
  simpa using (List.mem_filter.1 ha).2

/-- C43. What is reported about rules consists of complete cycles and perhaps the beginning of another one: conflict resolution; then no
rule, or a rule is selected and the same rule is fired or stopped from firing. With compilation switched on the compilation may be
reported before a rule fires. No other rule is selected in between. -/
theorem C43 (h : Reachable C w args t0 s) : Cycles (ruleReports s.trace) := by
  rw [← timedReports_map]
  exact cycles_of_timed (timed_reachable h)

/-- The reports of the example about rules: seven complete cycles. -/
example : ∃ s, Reachable exC exPresser exEnvArgs 0 s ∧ (ruleReports s.trace).length = 16 ∧ Cycles (ruleReports s.trace) := by
  obtain ⟨s, hs, ht⟩ := ex_simulation
  refine ⟨s, hs, ?_, C43 hs⟩
  have h1 : ∀ a : Act, decide (Cyclic a) = [Kind.conflict, .selected, .stopped, .fired, .noRule, .compiled].contains a.kind := by intro a; cases a <;> rfl
  have key : ∀ l : List (ℚ × Verif.Ev), (ruleReports l).length =
      ((l.map (·.2.act.kind)).filter (fun k => [Kind.conflict, .selected, .stopped, .fired, .noRule, .compiled].contains k)).length := by
    intro l
    unfold ruleReports
    simp only [h1, List.filter_map, List.length_map]
    rfl
  rw [key, ht]
  rfl

/-! ## C30 in simulations -/

/-- C30, partially: its times, in every simulation. Conflict resolution is reported at the same time as the selection of a rule or that there
is none; a rule fires, or is stopped from firing, `rule_firing` later, to four decimals. -/
theorem C30_times_partial (h : Reachable C w args t0 s) : TimedCycles (fun t u => IsRounded (t + C.ruleFiring) u) (timedReports s.trace) :=
  timedCycles_mono (fun t u hu => by rw [hu.2]; exact round4_isRounded _) (timed_reachable h)

/-- If `rule_firing` has at most four decimals, as the default value 0.05, then the time is exact. -/
theorem C30_exact_partial (hg : OnGrid C.ruleFiring) (h : Reachable C w args t0 s) : TimedCycles (fun t u => u = t + C.ruleFiring) (timedReports s.trace) :=
  timedCycles_mono (fun t u hu => by rw [hu.2, ← hu.1]; exact round4_onGrid (onGrid_add (onGrid_round4 t) hg)) (timed_reachable h)

/-- The reports of the example about rules, with their times: when the key has been pressed, the rule is selected again. -/
theorem ex_times : ∃ s, Reachable exC exPresser exEnvArgs 0 s ∧ (timedReports s.trace).map (fun x => (x.1, x.2.kind)) =
    [(0, .conflict), (0, .selected), (1 / 20, .fired), (1 / 20, .conflict), (1 / 20, .noRule), (1 / 10, .conflict), (1 / 10, .noRule), (1 / 5, .conflict), (1 / 5, .noRule),
     (1 / 4, .conflict), (1 / 4, .noRule), (13 / 50, .conflict), (13 / 50, .noRule), (7 / 20, .conflict), (7 / 20, .selected), (2 / 5, .fired)] := by
  have h : (match stepsOf exC 100 exSim with | .ok s => some ((timedReports s.trace).map (fun x => (x.1, x.2.kind))) | _ => Option.none) =
      some [(0, .conflict), (0, .selected), (1 / 20, .fired), (1 / 20, .conflict), (1 / 20, .noRule), (1 / 10, .conflict), (1 / 10, .noRule), (1 / 5, .conflict), (1 / 5, .noRule),
     (1 / 4, .conflict), (1 / 4, .noRule), (13 / 50, .conflict), (13 / 50, .noRule), (7 / 20, .conflict), (7 / 20, .selected), (2 / 5, .fired)] := by decide +kernel
  cases hs : stepsOf exC 100 exSim with
  | ok s => rw [hs] at h; exact ⟨s, stepsOf_ok .init hs, by simpa using h⟩
  | stopped s => rw [hs] at h; cases h
  | raised s x => rw [hs] at h; cases h
  | empty => rw [hs] at h; cases h

example : ∃ s, Reachable exC exPresser exEnvArgs 0 s ∧ (timedReports s.trace).length = 16 ∧ OnGrid exC.ruleFiring ∧ TimedCycles (fun t u => u = t + 1 / 20) (timedReports s.trace) := by
  obtain ⟨s, hs, ht⟩ := ex_times
  have hg : OnGrid exC.ruleFiring := ⟨500, by show (1 / 20 : ℚ) = _; norm_num⟩
  exact ⟨s, hs, by simpa using congrArg List.length ht, hg, C30_exact_partial hg hs⟩

/-! ## C46 -/

/-- C46 in full: from any state of a simulation a call of `run` with a positive number of seconds is carried out, and takes at most that
long. -/
def C46_full : Prop :=
  ∀ (C : Cfg) (w : Mach) (args : Option EnvArgs) (t0 : ℚ) (s s' : Sim) (t : ℚ) (r : Except PyErr Unit), Reachable C w args t0 s → 0 < t →
    RunCall C s t s' r → s'.now ≤ s.now + t ∧ (r = .ok () → s'.now = s.now + t) ∧ r ≠ .error .value

/-- It is not so: the number is the time on the clock at which the run ends. A simulation that begins at 5 s cannot run for 3 s. -/
theorem C46_refuted : ¬ C46_full := by
  intro h
  have hn : (Sim.init (exMach [] []) Option.none 5).now = 5 := by rw [(noStop_init _ _ _).2]; have := round4_of_int 50000; norm_num at this; exact this
  refine (h (exCfg (exPy exHash)) (exMach [] []) Option.none 5 _ _ 3 (.error .value) .init (by norm_num) (.refused (s1 := Sim.init (exMach [] []) Option.none 5) ?_)).2.2 rfl
  unfold Sim.setStop
  rw [if_pos (by rw [hn]; norm_num)]

/-- C46, partially. A call of `run(t)` is refused, without any effect, if the clock has reached `t`; otherwise the clock goes on, at most
to `t`. -/
theorem C46_partial {t : ℚ} {r : Except PyErr Unit} (h : Reachable C w args t0 s) (hr : RunCall C s t s' r) :
    (t ≤ s.now ∧ s' = s ∧ r = .error .value) ∨ (s.now < t ∧ s.now ≤ s'.now ∧ s'.now ≤ t) := by
  rcases run_call (fine_reachable h) hr with h | ⟨h1, _, h2, h3, _⟩
  · exact .inl h
  · exact .inr ⟨h1, h2, h3⟩

theorem runAll_clock (h : Fine C.ruleFiring s) (hn : NoStop s) {ts : List ℚ} (hr : RunAll C s ts s') : (s.now :: ts).Pairwise (· < ·) ∧ (s.now :: ts).getLast? = some s'.now := by
  induction hr with
  | none s => simp
  | @more s s1 s2 t ts hc _ ih =>
    rcases run_call h hc with ⟨_, _, hx⟩ | ⟨hlt, hf, _, _, hok⟩
    · cases hx
    · obtain ⟨he, hns⟩ := hok rfl hn
      obtain ⟨hp, hl⟩ := ih hf hns
      rw [he] at hp hl
      refine ⟨List.pairwise_cons.2 ⟨fun x hx => ?_, hp⟩, by rw [List.getLast?_cons_cons]; exact hl⟩
      rcases List.mem_cons.1 hx with rfl | hx
      · exact hlt
      · exact hlt.trans ((List.pairwise_cons.1 hp).1 x hx)

/-- Calls of `run` on a new simulation that all succeed: the times must increase, beginning from the initial time, and afterwards the
clock shows the last of them. In particular `run` does not succeed twice with the same number. -/
theorem C46_calls_partial {ts : List ℚ} (hr : RunAll C (Sim.init w args t0) ts s) :
    (round4 t0 :: ts).Pairwise (· < ·) ∧ (round4 t0 :: ts).getLast? = some s.now := by
  obtain ⟨a, b⟩ := noStop_init w args t0
  have := runAll_clock (fine_reachable (C := C) .init) a hr
  rwa [b] at this

/-- Two calls of `run` on the simulation of the example. -/
example : ∃ s, RunAll exC exSim [1 / 10, 3 / 10] s := by
  obtain ⟨s1, h1⟩ := Option.isSome_iff_exists.1 (show (runOf exC 100 exSim (1 / 10)).isSome = true by decide +kernel)
  obtain ⟨s2, h2⟩ := Option.isSome_iff_exists.1 (show ((runOf exC 100 exSim (1 / 10)).bind (fun s => runOf exC 100 s (3 / 10))).isSome = true by decide +kernel)
  rw [h1] at h2
  exact ⟨s2, .more (runOf_call h1) (.more (runOf_call h2) (.none s2))⟩

end Verif.Props
