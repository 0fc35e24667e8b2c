import Verif.Lemmas.Ending
import Verif.Props.Errors
import Verif.Props.Provenance
import Verif.Props.Simulation
/-! # Every run comes to an end, and how fast rules fire (properties C81 and C82) -/
namespace Verif.Props
open Verif Verif.Spec

variable {C : Cfg} {w : Mach} {args : Option EnvArgs} {t0 : ℚ} {s s' : Sim}

/-! ## C81 -/

theorem runsOn_unique {s1 s2 : Sim} {r1 r2 : Except PyErr Unit} (h1 : RunsOn C s s1 r1) (h2 : RunsOn C s s2 r2) : s2 = s1 ∧ r2 = r1 := by
  induction h1 with
  | stopped a => cases h2 with
    | stopped b => rw [a] at b; cases b; exact ⟨rfl, rfl⟩
    | raised b => rw [a] at b; cases b
    | more b _ => rw [a] at b; cases b
  | raised a => cases h2 with
    | stopped b => rw [a] at b; cases b
    | raised b => rw [a] at b; cases b; exact ⟨rfl, rfl⟩
    | more b _ => rw [a] at b; cases b
  | more a _ ih => cases h2 with
    | stopped b => rw [a] at b; cases b
    | raised b => rw [a] at b; cases b
    | more b c => rw [a] at b; cases b; exact ih c

theorem runCall_unique {t : ℚ} {s1 s2 : Sim} {r1 r2 : Except PyErr Unit} (h1 : RunCall C s t s1 r1) (h2 : RunCall C s t s2 r2) : s2 = s1 ∧ r2 = r1 := by
  cases h1 with
  | refused a => cases h2 with
    | refused b => rw [a] at b; cases b; exact ⟨rfl, rfl⟩
    | failed b _ => rw [a] at b; cases b
    | ended b _ _ => rw [a] at b; cases b
  | failed a c => cases h2 with
    | refused b => rw [a] at b; cases b
    | failed b d => rw [a] at b; cases b; exact runsOn_unique c d
    | ended b d _ => rw [a] at b; cases b; cases (runsOn_unique c d).2
  | ended a c e => cases h2 with
    | refused b => rw [a] at b; cases b
    | failed b d => rw [a] at b; cases b; cases (runsOn_unique c d).2
    | ended b d f =>
      rw [a] at b; cases b
      obtain ⟨rfl, -⟩ := runsOn_unique c d
      rw [e] at f; cases f; exact ⟨rfl, rfl⟩

/-- C81. If a rule fires more than 0.05 ms after it was selected, every call of `run` comes to an end, in whatever state of whatever simulation it is made and whatever happened before, and it has only one outcome. -/
theorem C81 (hrf : 1 / 20000 < C.ruleFiring) (h : Reachable C w args t0 s) (t : ℚ) : ∃ s' r, RunCall C s t s' r ∧ ∀ s2 r2, RunCall C s t s2 r2 → s2 = s' ∧ r2 = r := by
  obtain ⟨s', r, hr⟩ := run_terminates (slow_close hrf.le) (by linarith) h t
  exact ⟨s', r, hr, fun s2 r2 h2 => runCall_unique hr h2⟩

/-- C81: when calls of `run` on a new simulation have succeeded, another one with a later time comes to an end too: it raises an exception, or the clock shows that time. -/
theorem C81_clock (hrf : 1 / 20000 < C.ruleFiring) {ts : List ℚ} (h : RunAll C (Sim.init w args t0) ts s) (t : ℚ) : ∃ s' r, RunCall C s t s' r ∧ (r = .ok () → s'.now = t) := by
  have hall : ∀ {a b : Sim} {ts : List ℚ}, RunAll C a ts b → Reachable C w args t0 a → Reachable C w args t0 b := fun h => by
    induction h with
    | none s => exact id
    | more hc _ ih => exact fun ha => ih (reachable_runCall ha hc)
  have hsnoc : ∀ {a b c : Sim} {ts : List ℚ}, RunAll C a ts b → RunCall C b t c (.ok ()) → RunAll C a (ts ++ [t]) c := fun h hc => by
    induction h with
    | none s => exact .more hc (.none _)
    | more hd _ ih => exact .more hd (ih hc)
  obtain ⟨s', r, hr, -⟩ := C81 hrf (hall h .init) t
  refine ⟨s', r, hr, fun he => ?_⟩
  subst he
  have := (C46_calls_partial (hsnoc h hr)).2
  rw [← List.cons_append, List.getLast?_concat] at this
  exact (Option.some.inj this).symm

/-- A call of `run` in the example, after another one. -/
example : ∃ s, RunAll exC exSim [1 / 10] s ∧ 1 / 20000 < exC.ruleFiring ∧ ∃ s' r, RunCall exC s (3 / 10) s' r ∧ (r = .ok () → s'.now = 3 / 10) := by
  obtain ⟨s1, h1⟩ := Option.isSome_iff_exists.1 (show (runOf exC 100 exSim (1 / 10)).isSome = true by decide +kernel)
  have h : RunAll exC exSim [1 / 10] s1 := .more (runOf_call h1) (.none s1)
  have hrf : (1 / 20000 : ℚ) < exC.ruleFiring := by show (1 / 20000 : ℚ) < 1 / 20; norm_num
  exact ⟨s1, h, hrf, C81_clock (w := exPresser) (args := exEnvArgs) (t0 := 0) hrf h _⟩

/-! ## C82 -/

/-- C82. If the firing time of rules is a multiple of 0.1 ms, between two firings at least this time goes by, and the same between two selections. -/
theorem C82_apart (hg : OnGrid C.ruleFiring) (h0 : 0 ≤ C.ruleFiring) (h : Reachable C w args t0 s) : SpacedBy C.ruleFiring (firingTimes s.trace) ∧ SpacedBy C.ruleFiring (selectionTimes s.trace) :=
  (spaced_fine (slow_grid hg h0) (fine_reachable h)).symm

/-- C82: hence no more rules have fired than the firing time is contained in the time since the beginning, and at most one more was selected. -/
theorem C82_count (hg : OnGrid C.ruleFiring) (h0 : 0 ≤ C.ruleFiring) (h : Reachable C w args t0 s) :
    ((firingTimes s.trace).length : ℚ) * C.ruleFiring ≤ s.now - round4 t0 ∧ ((selectionTimes s.trace).length : ℚ) * C.ruleFiring ≤ s.now - round4 t0 + C.ruleFiring := by
  obtain ⟨N, hN⟩ := screens_exists C args
  obtain ⟨hw, hL⟩ := whole_reachable hN h
  rw [length_firings, length_selections]
  exact (paced_fine (slow_grid hg h0) hw.fine hL).symm

/-- C82: the same for every interval of time. -/
theorem C82_window (hg : OnGrid C.ruleFiring) (h0 : 0 ≤ C.ruleFiring) (h : Reachable C w args t0 s) {a b : ℚ} (hab : a ≤ b) :
    (((firingTimes s.trace).filter (fun x => a ≤ x ∧ x ≤ b)).length : ℚ) * C.ruleFiring ≤ b - a + C.ruleFiring :=
  apart_window h0 (C82_apart hg h0 h).1 hab

/-- C82: with any other firing time up to 0.05 ms are missing, since times are rounded. -/
theorem C82_rounded (h0 : 1 / 20000 ≤ C.ruleFiring) (h : Reachable C w args t0 s) :
    SpacedBy (C.ruleFiring - 1 / 20000) (firingTimes s.trace) ∧ SpacedBy (C.ruleFiring - 1 / 20000) (selectionTimes s.trace) ∧
    ((firingTimes s.trace).length : ℚ) * (C.ruleFiring - 1 / 20000) ≤ s.now - round4 t0 := by
  obtain ⟨N, hN⟩ := screens_exists C args
  obtain ⟨hw, hL⟩ := whole_reachable hN h
  obtain ⟨h1, h2⟩ := spaced_fine (slow_close h0) hw.fine
  rw [length_firings]
  exact ⟨h2, h1, (paced_fine (slow_close h0) hw.fine hL).2⟩

/-- In the example rules fire at 0.05 s and 0.4 s. -/
example : ∃ s, Reachable exC exPresser exEnvArgs 0 s ∧ firingTimes s.trace = [1 / 20, 2 / 5] ∧ selectionTimes s.trace = [0, 7 / 20] ∧ OnGrid exC.ruleFiring ∧ 0 ≤ exC.ruleFiring := by
  have h : (Stepped.state? (stepsOf exC 100 exSim)).map (fun s => (firingTimes s.trace, selectionTimes s.trace)) = some ([1 / 20, 2 / 5], [0, 7 / 20]) := by decide +kernel
  cases h1 : Stepped.state? (stepsOf exC 100 exSim) with
  | none => rw [h1] at h; cases h
  | some s =>
    rw [h1] at h
    have := Option.some.inj h
    exact ⟨s, stepsOf_ok .init (state?_some h1), congrArg Prod.fst this, congrArg Prod.snd this, ⟨500, by show (1 / 20 : ℚ) = _; norm_num⟩, by show (0 : ℚ) ≤ 1 / 20; norm_num⟩

/-- A rule that always fires. -/
def exRestless : Mach := { exMach [] [] with rules := [("a", ⟨⟨.ok [], .ok []⟩, 5, Option.none⟩)], ordered := ["a"] }

/-- Rules that need no time. -/
noncomputable abbrev exHastyC : Cfg := { exFullC with ruleFiring := 0, up := ⟨false, 0, false, 1 / 5⟩ }

/-- Without a firing time the clock stands still while rules fire. -/
example : ∃ s, Reachable exHastyC exRestless Option.none 0 s ∧ firingTimes s.trace = [0, 0] := by
  have h : (Stepped.state? (stepsOf exHastyC 20 (Sim.init exRestless Option.none 0))).map (fun s => firingTimes s.trace) = some [0, 0] := by decide +kernel
  cases h1 : Stepped.state? (stepsOf exHastyC 20 (Sim.init exRestless Option.none 0)) with
  | none => rw [h1] at h; cases h
  | some s =>
    rw [h1] at h
    exact ⟨s, stepsOf_ok .init (state?_some h1), Option.some.inj h⟩

end Verif.Props
