import Verif.Lemmas.Twin5
import Verif.Props.Ending
import Verif.Props.Repertoire
/-! # One call of `run` or several (property C83) -/
namespace Verif.Props
open Verif Verif.Spec

variable {C : Cfg} {w : Mach} {args : Option EnvArgs} {t0 : ℚ} {s s' : Sim}

theorem smooth_twin (h : Smooth C w args t0 s) : ∃ R, Twin R Option.none Option.none s s := by
  induction h with
  | init => exact ⟨_, twin_init w args t0⟩
  | step _ hs ih =>
    obtain ⟨R, h⟩ := ih
    rcases twin_step_free (C := C) h with ⟨h1, _⟩ | ⟨s1, s1', h1, ⟨h2, h3⟩ | ⟨x, h2, _⟩⟩
    · rw [hs] at h1; cases h1
    · rw [hs] at h2 h3; cases h2; cases h3; exact ⟨R, h1⟩
    · rw [hs] at h2; cases h2
  | run _ hr ih =>
    obtain ⟨R, h⟩ := ih
    obtain ⟨x', h1, -, h2⟩ := agree_call h hr
    obtain ⟨rfl, -⟩ := runCall_unique hr h1
    exact h2 rfl

/-- C83 in full: from every state reached without exceptions, `run(t2)` and `run(t1)` followed by `run(t2)` come to the same, for any time `t1` in between. -/
def C83_full : Prop := ∀ (C : Cfg) (w : Mach) (args : Option EnvArgs) (t0 : ℚ) (s : Sim) (t1 t2 : ℚ), Smooth C w args t0 s → s.now < t1 → t1 < t2 →
  ∀ x r, RunCall C s t2 x r → ∃ x', RunTwice C s t1 t2 x' r ∧ LooksAlike x x'

/-- Two simulations cannot be told apart, now and after any further calls of `run`. -/
def SameForever (C : Cfg) (x x' : Sim) : Prop :=
  LooksAlike x x' ∧ ∀ ts, (∀ y, RunAll C x ts y → ∃ y', RunAll C x' ts y' ∧ LooksAlike y y') ∧ ∀ y', RunAll C x' ts y' → ∃ y, RunAll C x ts y ∧ LooksAlike y y'

theorem concur_forever {x x' : Sim} {r : Except PyErr Unit} (ha : Concur x x' r) : LooksAlike x x' ∧ (r = .ok () → SameForever C x x') := by
  refine ⟨ha.1, fun hr => ?_⟩
  obtain ⟨R', hT⟩ := ha.2 hr
  refine ⟨ha.1, fun ts => ⟨fun y hy => ?_, fun y hy => ?_⟩⟩
  · obtain ⟨y', R'', k1, k2⟩ := agree_runAll hy hT
    exact ⟨y', k1, twin_alike k2⟩
  · obtain ⟨y', R'', k1, k2⟩ := agree_runAll_right hy hT
    exact ⟨y', k1, twin_alike k2⟩

/-- C83, partially. From every state reached without exceptions, `run(t2)` and `run(t1)` followed by `run(t2)` come to the same, for any time `t1` in between: the same exception or none, the same time on the clock, the same model and
modules, the same reports, and no difference later on. This is so if rules are not compiled, or if something is left to happen at `t1`. -/
theorem C83_partial (h : Smooth C w args t0 s) {t1 t2 : ℚ} (h1 : s.now < t1) (h2 : t1 < t2) (hq : C.compilation = true → ∀ x r, RunCall C s t1 x r → x.queue ≠ []) :
    (∀ x r, RunCall C s t2 x r → ∃ x', RunTwice C s t1 t2 x' r ∧ LooksAlike x x' ∧ (r = .ok () → SameForever C x x')) ∧
    ∀ x' r, RunTwice C s t1 t2 x' r → ∃ x, RunCall C s t2 x r ∧ LooksAlike x x' ∧ (r = .ok () → SameForever C x x') := by
  obtain ⟨R, hR⟩ := smooth_twin h
  constructor
  · intro x r hx
    obtain ⟨x', k1, k2⟩ := split_left hR h1 h2 hq hx
    exact ⟨x', k1, concur_forever k2⟩
  · intro x r hx
    obtain ⟨x', k1, k2⟩ := split_right hR h1 h2 hq hx
    exact ⟨x', k1, concur_forever k2⟩

theorem smooth_reachable (h : Smooth C w args t0 s) : Reachable C w args t0 s := by
  induction h with
  | init => exact .init
  | step _ hs ih => exact .step ih hs
  | run _ hr ih => exact reachable_runCall ih hr

/-- C83, steps: a step followed by `run(t)` comes to the same as `run(t)` alone, if the event of the step comes before `t`. -/
theorem C83_step (h : Smooth C w args t0 s) {s1 : Sim} (hs : s.step C = .ok s1) {t : ℚ} (ht : s1.now < t) :
    (∀ x r, RunCall C s t x r → ∃ x', RunCall C s1 t x' r ∧ LooksAlike x x' ∧ (r = .ok () → SameForever C x x')) ∧
    ∀ x' r, RunCall C s1 t x' r → ∃ x, RunCall C s t x r ∧ LooksAlike x x' ∧ (r = .ok () → SameForever C x x') := by
  obtain ⟨R, hR⟩ := smooth_twin h
  have hf := fine_reachable (smooth_reachable h)
  obtain ⟨en, q, hq, hn⟩ : ∃ en q, s.queue = en :: q ∧ s1.now = en.time := by
    rcases step_cases hs with ⟨h, _⟩ | ⟨en, q, hq, ⟨_, h⟩ | ⟨hstop, h | ⟨_, h⟩⟩⟩ <;> cases h
    exact ⟨en, q, hq, (fine_called C hf hq hstop).2.now⟩
  have hle : s.now ≤ s1.now := by rw [hn]; exact (head_time hf.1 hq).1
  obtain ⟨R', e, e', u, k1, k2, k3⟩ := twin_stepped hR hs hq (by rw [← hn]; exact ht) ht
  have hr := fun x r => (runCall_iff (C := C) (hle.trans_lt ht) (x := x) (r := r)).trans (runFrom_congr fun x r => runsOn_step k1).symm
  constructor
  · intro x r hx
    obtain ⟨x', g1, g2⟩ := agree_left k3 k2 ((hr x r).1 hx)
    exact ⟨x', (runCall_iff ht).2 g1, concur_forever g2⟩
  · intro x r hx
    obtain ⟨x', g1, g2⟩ := agree_right k3 k2 ((runCall_iff ht).1 hx)
    exact ⟨x', (hr x' r).2 g1, concur_forever g2⟩

theorem alike_trans {a b c : Sim} (h : LooksAlike a b) (h' : LooksAlike b c) : LooksAlike a c := ⟨h.now.trans h'.now, h.w.trans h'.w, h.trace.trans h'.trace⟩

/-- C83, any number of calls: if rules are not compiled, calls of `run` with increasing times come to the same as the last one alone, and so it is the other way round. -/
theorem C83_calls (hc : C.compilation = false) : ∀ (ts : List ℚ) {s : Sim} (_ : Smooth C w args t0 s) {t : ℚ} (_ : (s.now :: (ts ++ [t])).Pairwise (· < ·)),
    (∀ x, RunCall C s t x (.ok ()) → ∃ x', RunAll C s (ts ++ [t]) x' ∧ LooksAlike x x') ∧ ∀ x', RunAll C s (ts ++ [t]) x' → ∃ x, RunCall C s t x (.ok ()) ∧ LooksAlike x x'
  | [], s, _, t, _ => by
    refine ⟨fun x hx => ⟨x, .more hx (.none x), rfl, rfl, rfl⟩, fun x hx => ?_⟩
    cases hx with
    | more h1 h2 => cases h2; exact ⟨_, h1, rfl, rfl, rfl⟩
  | t1 :: ts, s, h, t, hp => by
    obtain ⟨hp1, hp2⟩ := List.pairwise_cons.1 hp
    have h1 : s.now < t1 := hp1 t1 (.head _)
    have h2 : t1 < t := (List.pairwise_cons.1 hp2).1 t (List.mem_append_right _ (.head _))
    obtain ⟨k1, k2⟩ := C83_partial h h1 h2 (fun hx => by rw [hc] at hx; cases hx)
    have hnow : ∀ {s1 : Sim}, RunCall C s t1 s1 (.ok ()) → s1.now = t1 := fun hr => by
      obtain ⟨R, hR⟩ := smooth_twin h
      exact (call_now hR hr).2
    constructor
    · intro x hx
      obtain ⟨x', g1, g2, -⟩ := k1 x _ hx
      cases g1 with
      | both g3 g4 =>
        obtain ⟨y, g5, g6⟩ := (C83_calls hc ts (.run h g3) (t := t) (by rw [hnow g3]; exact hp2)).1 _ g4
        exact ⟨y, .more g3 g5, alike_trans g2 g6⟩
    · intro x hx
      cases hx with
      | more g3 g4 =>
        obtain ⟨y, g5, g6⟩ := (C83_calls hc ts (.run h g3) (t := t) (by rw [hnow g3]; exact hp2)).2 _ g4
        obtain ⟨z, g7, g8, -⟩ := k2 _ _ (.both g3 g5)
        exact ⟨z, g7, alike_trans g8 g6⟩

/-! ## Examples -/

/-- Two rules that fire one after the other, and then nothing happens any more. -/
def exCouple : Mach :=
  { exTurns 5 with rules := [("go", ⟨exChange (exLit "a") (exLit "b"), 5, Option.none⟩), ("come", ⟨exChange (exLit "b") (exLit "c"), 5, Option.none⟩)] }

/-- Compilation and learning are on. -/
noncomputable abbrev exCoupleC : Cfg := { exLearnerC with up := ⟨false, 0, true, 1 / 5⟩ }

/-- The utility of the rule that is made of them. -/
def pairUtility (s : Sim) : Option ℚ := (alook "go and come" s.w.rules).map (·.utility)

/-- C83 does not hold in full: whenever `run` ends and nothing is left to happen, the last two rules are compiled once more, and with learning the utility of the compiled rule goes up. It is 0 after one call of `run`, and 1 after two. -/
theorem C83_refuted : ¬ C83_full := by
  intro h
  have ha : (runOf exCoupleC 200 (Sim.init exCouple Option.none 0) 2).map pairUtility = some (some 0) := by decide +kernel
  have hb : ((runOf exCoupleC 200 (Sim.init exCouple Option.none 0) 1).bind (runOf exCoupleC 200 · 2)).map pairUtility = some (some 1) := by decide +kernel
  cases h1 : runOf exCoupleC 200 (Sim.init exCouple Option.none 0) 2 with
  | none => rw [h1] at ha; cases ha
  | some x =>
    rw [h1] at ha
    have ha := Option.some.inj ha
    cases h2 : runOf exCoupleC 200 (Sim.init exCouple Option.none 0) 1 with
    | none => rw [h2] at hb; cases hb
    | some s1 =>
      rw [h2] at hb
      cases h3 : runOf exCoupleC 200 s1 2 with
      | none => rw [Option.bind_some, h3] at hb; cases hb
      | some y =>
        rw [Option.bind_some, h3] at hb
        have hb := Option.some.inj hb
        have hn : (Sim.init exCouple Option.none 0).now = 0 := by decide +kernel
        obtain ⟨x', k1, k2⟩ := h exCoupleC exCouple Option.none 0 _ 1 2 .init (by rw [hn]; norm_num) (by norm_num) x _ (runOf_call h1)
        cases k1 with
        | both k3 k4 =>
          obtain ⟨rfl, -⟩ := runCall_unique (runOf_call h2) k3
          obtain ⟨rfl, -⟩ := runCall_unique (runOf_call h3) k4
          have : pairUtility x = pairUtility x' := by unfold pairUtility; rw [k2.w]
          rw [ha, hb] at this
          exact absurd (Option.some.inj this) (by norm_num)

/-- C83_partial, an instance: the example with a rule and key presses, stopped while a movement is under way. -/
example : ∃ x x', RunCall exC exSim (3 / 10) x (.ok ()) ∧ RunTwice exC exSim (1 / 10) (3 / 10) x' (.ok ()) ∧ SameForever exC x x' ∧ firingTimes x.trace = [1 / 20] := by
  have hb : (runOf exC 200 exSim (3 / 10)).map (fun s => firingTimes s.trace) = some [1 / 20] := by decide +kernel
  have hn : exSim.now = 0 := by decide +kernel
  cases h1 : runOf exC 200 exSim (3 / 10) with
  | none => rw [h1] at hb; cases hb
  | some x =>
    rw [h1] at hb
    obtain ⟨x', k1, -, k2⟩ := (C83_partial (C := exC) (w := exPresser) (args := exEnvArgs) (t0 := 0) (s := exSim) .init (t1 := 1 / 10) (t2 := 3 / 10) (by rw [hn]; norm_num) (by norm_num) (fun h => by cases h)).1 x _ (runOf_call h1)
    exact ⟨x, x', runOf_call h1, k1, k2 rfl, Option.some.inj hb⟩

/-- C83_calls, an instance: four calls, or one. -/
example : ∃ x x', RunCall exC exSim (3 / 10) x (.ok ()) ∧ RunAll exC exSim [1 / 20, 3 / 40, 1 / 4, 3 / 10] x' ∧ LooksAlike x x' := by
  obtain ⟨x, h1⟩ := Option.isSome_iff_exists.1 (show (runOf exC 200 exSim (3 / 10)).isSome = true by decide +kernel)
  have hn : exSim.now = 0 := by decide +kernel
  obtain ⟨x', k1, k2⟩ := (C83_calls (C := exC) (w := exPresser) (args := exEnvArgs) (t0 := 0) rfl [1 / 20, 3 / 40, 1 / 4] (s := exSim) .init (t := 3 / 10) (by rw [hn]; norm_num)).1 x (runOf_call h1)
  exact ⟨x, x', runOf_call h1, k1, k2⟩

/-- C83_partial, an instance with compilation: the first call is over while a rule is under way. -/
example : ∃ x x', RunCall exCoupleC (Sim.init exCouple Option.none 0) (1 / 2) x (.ok ()) ∧ RunTwice exCoupleC (Sim.init exCouple Option.none 0) (3 / 40) (1 / 2) x' (.ok ()) ∧ SameForever exCoupleC x x' ∧ pairUtility x = some 0 := by
  have ha : (runOf exCoupleC 200 (Sim.init exCouple Option.none 0) (1 / 2)).map pairUtility = some (some 0) := by decide +kernel
  have hb : (runOf exCoupleC 200 (Sim.init exCouple Option.none 0) (3 / 40)).map (fun s => s.queue.isEmpty) = some false := by decide +kernel
  have hn : (Sim.init exCouple Option.none 0).now = 0 := by decide +kernel
  cases h1 : runOf exCoupleC 200 (Sim.init exCouple Option.none 0) (1 / 2) with
  | none => rw [h1] at ha; cases ha
  | some x =>
    rw [h1] at ha
    cases h2 : runOf exCoupleC 200 (Sim.init exCouple Option.none 0) (3 / 40) with
    | none => rw [h2] at hb; cases hb
    | some y =>
      rw [h2] at hb
      obtain ⟨x', k1, -, k2⟩ := (C83_partial (C := exCoupleC) (w := exCouple) (args := Option.none) (t0 := 0) .init (t1 := 3 / 40) (t2 := 1 / 2) (by rw [hn]; norm_num) (by norm_num) (fun _ z r hz hq => by
        obtain ⟨rfl, -⟩ := runCall_unique (runOf_call h2) hz
        have := Option.some.inj hb
        change z.queue.isEmpty = false at this
        rw [hq] at this; cases this)).1 x _ (runOf_call h1)
      exact ⟨x, x', runOf_call h1, k1, k2 rfl, Option.some.inj ha⟩

theorem stepsOf_smooth {n : ℕ} (h : Smooth C w args t0 s) (he : stepsOf C n s = .ok s') : Smooth C w args t0 s' := by
  induction n generalizing s with
  | zero => cases he; exact h
  | succ n ih =>
    rw [stepsOf_succ] at he
    cases hs : s.step C with
    | ok s1 => rw [hs] at he; exact ih (h.step hs) he
    | stopped s1 => rw [hs] at he; cases he
    | raised s1 x => rw [hs] at he; cases he
    | empty => rw [hs] at he; cases he

/-- C83_step, an instance: the simulation is stepped 24 times before the call. -/
example : ∃ s s1 x x', Smooth exC exPresser exEnvArgs 0 s ∧ s.step exC = .ok s1 ∧ s1.now = 1 / 20 ∧ RunCall exC s (3 / 10) x (.ok ()) ∧ RunCall exC s1 (3 / 10) x' (.ok ()) ∧ SameForever exC x x' := by
  have hb : ((Stepped.state? (stepsOf exC 24 exSim)).bind (fun s => Stepped.state? (s.step exC))).map (·.now) = some (1 / 20) := by decide +kernel
  cases h1 : Stepped.state? (stepsOf exC 24 exSim) with
  | none => rw [h1] at hb; cases hb
  | some s =>
    rw [h1, Option.bind_some] at hb
    cases h2 : Stepped.state? (s.step exC) with
    | none => rw [h2] at hb; cases hb
    | some s1 =>
      rw [h2] at hb
      have hn : s1.now = 1 / 20 := Option.some.inj hb
      have hc : ((Stepped.state? (stepsOf exC 24 exSim)).bind (runOf exC 200 · (3 / 10))).isSome = true := by decide +kernel
      rw [h1, Option.bind_some] at hc
      obtain ⟨x, h3⟩ := Option.isSome_iff_exists.1 hc
      have hs : Smooth exC exPresser exEnvArgs 0 s := stepsOf_smooth .init (state?_some h1)
      obtain ⟨x', k1, -, k2⟩ := (C83_step hs (state?_some h2) (t := 3 / 10) (by rw [hn]; norm_num)).1 x _ (runOf_call h3)
      exact ⟨s, s1, x, x', hs, state?_some h2, hn, runOf_call h3, k1, k2 rfl⟩

end Verif.Props
