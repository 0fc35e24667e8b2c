import Verif.Spec.Misuse
import Verif.Lemmas.Foremost
import Verif.Props.Service
import Verif.Props.Strike
/-! # Simpy is not misused (property C88) -/
namespace Verif.Props
open Verif Verif.Spec

variable {C : Cfg} {w : Mach} {args : Option EnvArgs} {t : ℚ} {s s' : Sim} {p : ℕ} {n : String}

theorem broken_failed (h : Reachable C w args t s) (hb : Broken s) : ∃ x, x ≠ .runtime ∧ ModuleFailed s x := by
  obtain ⟨n, q, x, h1, h2, h3⟩ := hb
  refine ⟨x, h3, n, q, h1, ?_, h2⟩
  cases hp : s.points q with
  | none => rfl
  | some pt => rw [((firm_reachable h).1.alive n q pt h1 hp).2] at h2; cases h2

/-- In a simulation without environment, nothing has failed with a RuntimeError (which simpy raises when an event is triggered twice and
when a process is interrupted that has ended) unless the process of a module has failed with another exception. -/
theorem C88_events (hn : NoneOfItsOwn .runtime C w) (he : w.env = Option.none) (h : Reachable C w args t s) {ev : ℕ} (hv : (s.events ev).value = some (.error .runtime)) :
    ∃ x, x ≠ .runtime ∧ ModuleFailed s x :=
  broken_failed h ((condoned_reachable (civil_of hn).1 (civil_of hn).2 he h).2 ⟨ev, hv⟩)

theorem raised_values {x : PyErr} (h : Reachable C w args t s) (hr : s.step C = .raised s' x) : ∃ ev, (s.events ev).value = some (.error x) ∧ (s'.events ev).value = some (.error x) := by
  have hfi := fine_reachable h
  rcases step_cases hr with ⟨h0, _⟩ | ⟨en, q, hq, ⟨_, h0⟩ | ⟨hst, h0 | ⟨y, h0⟩⟩⟩
  · cases h0
  · cases h0
  · cases h0
  · have hx : s' = s.called C en q := by cases h0; rfl
    have hv : (s.events en.ev).value = some (.error x) := by
      unfold Sim.step at hr
      rw [hq] at hr
      dsimp only at hr
      split at hr
      · cases hr
      · split at hr
        · rename_i x' hv
          split at hr
          · cases hr
          · injection hr with hr1 hr2
            subst hr2
            cases hx : (s.events en.ev).value with
            | none => rw [hx] at hv; cases hv
            | some v => rw [hx] at hv; exact congrArg some hv
        · cases hr
    refine ⟨en.ev, hv, ?_⟩
    rw [hx]
    refine (fine_called C hfi hq hst).2.value en.ev _ ?_
    show ((s.taken en q).events en.ev).value = _
    unfold Sim.taken
    dsimp only
    rw [fset_same]; exact hv

/-- C88. A step of a simulation without environment raises a RuntimeError only when the process of a module has failed with another
exception. With an environment this is not so: see `C47_refuted`. -/
theorem C88 (hn : NoneOfItsOwn .runtime C w) (he : w.env = Option.none) (h : Reachable C w args t s) (hr : s.step C = .raised s' .runtime) :
    ∃ x, x ≠ .runtime ∧ ModuleFailed s x := by
  obtain ⟨ev, hv, -⟩ := raised_values h hr
  exact C88_events hn he h hv

/-- A process fails with it only then, too. -/
theorem C88_fails (hn : NoneOfItsOwn .runtime C w) (he : w.env = Option.none) (h : Reachable C w args t s) (hf : FailsIn C s s' p .runtime) :
    ∃ x, x ≠ .runtime ∧ ModuleFailed s' x := by
  obtain ⟨hl, -, -, hv⟩ := hf
  refine C88_events (args := args) (t := t) hn he ?_ hv
  rcases hl with hl | hl | ⟨_, hl⟩
  · exact h.step hl
  · exact h.stopped hl
  · exact h.raised hl

/-- And likewise a call of `run`. -/
theorem C88_run (hn : NoneOfItsOwn .runtime C w) (he : w.env = Option.none) (h : Reachable C w args t s) {q : ℚ} (hr : RunCall C s q s' (.error .runtime)) :
    ∃ x, x ≠ .runtime ∧ ModuleFailed s' x := by
  have key : ∀ {s s' : Sim} {r : Except PyErr Unit}, RunsOn C s s' r → Reachable C w args t s → r = .error .runtime → ∃ x, x ≠ .runtime ∧ ModuleFailed s' x := fun hro => by
    induction hro with
    | stopped _ => exact fun _ h => by cases h
    | @raised s s' x hs =>
      intro h0 hx
      cases hx
      obtain ⟨ev, -, hv⟩ := raised_values h0 hs
      exact C88_events hn he (h0.raised hs) hv
    | more hs _ ih => exact fun h0 hx => ih (h0.step hs) hx
  cases hr with
  | refused h1 =>
    unfold Sim.setStop at h1
    split at h1 <;> cases h1
  | failed h1 h2 => exact key h2 (h.stop h1) rfl
  | @ended s1 s2 s3 r h1 h2 h3 =>
    exfalso
    have hr2 := reachable_runsOn (h.stop h1) h2
    have hb := (blameless_compileIn (C := C) (muffled_sound (condoned_reachable (civil_of hn).1 (civil_of hn).2 he hr2).1.muffled)).out
    unfold compileAtEnd at h3
    split at h3
    · rcases hci : compileIn C s2.w with ⟨w', x | o⟩ <;> rw [hci] at h3 hb <;> cases h3
      exact hb rfl
    · cases h3

/-- It is never the first thing that goes wrong: as long as no exception has been raised, no step raises it. -/
theorem C88_first (hn : NoneOfItsOwn .runtime C w) (he : w.env = Option.none) (h : Unraised C w args t s) : s.step C ≠ .raised s' .runtime := fun hr => by
  have hF := (fore_unraised (civil_of hn).1 (civil_of hn).2 he h).1
  cases hq : s.queue with
  | nil => rw [step_eq, hq] at hr; cases hr
  | cons en q =>
    rw [hq] at hF
    refine hF.1 ?_
    rw [step_eq, hq] at hr
    dsimp only at hr
    show (s.events en.ev).value = _
    split at hr
    · cases hr
    · split at hr
      · rename_i x hv
        split at hr
        · cases hr
        · injection hr with _ hx
          subst hx
          cases hx : (s.events en.ev).value with
          | none => rw [hx] at hv; cases hv
          | some v => rw [hx] at hv; exact congrArg some hv
      · cases hr

/-- And no call of `run` does. -/
theorem C88_firstRun (hn : NoneOfItsOwn .runtime C w) (he : w.env = Option.none) (h : Unraised C w args t s) {q : ℚ} : ¬ RunCall C s q s' (.error .runtime) := fun hr => by
  have key : ∀ {s s' : Sim} {r : Except PyErr Unit}, RunsOn C s s' r → Unraised C w args t s → (r = .ok () → Unraised C w args t s') ∧ r ≠ .error .runtime := fun hro => by
    induction hro with
    | stopped hs => exact fun h => ⟨fun _ => h.stopped hs, by simp⟩
    | @raised s s' x hs =>
      refine fun h0 => ⟨by simp, fun hx => ?_⟩
      cases hx
      exact C88_first hn he h0 hs
    | more hs _ ih => exact fun h0 => ih (h0.step hs)
  have hstop : ∀ {s1 : Sim}, s.setStop q = (s1, .ok ()) → Unraised C w args t s1 := fun {s1} h1 => by
    have := h.stop q
    rwa [h1] at this
  cases hr with
  | refused h1 =>
    unfold Sim.setStop at h1
    split at h1 <;> cases h1
  | failed h1 h2 => exact (key h2 (hstop h1)).2 rfl
  | @ended s1 s2 s3 r h1 h2 h3 =>
    have hr2 := reachable_unraised ((key h2 (hstop h1)).1 rfl)
    have hb := (blameless_compileIn (C := C) (muffled_sound (condoned_reachable (civil_of hn).1 (civil_of hn).2 he hr2).1.muffled)).out
    unfold compileAtEnd at h3
    split at h3
    · rcases hci : compileIn C s2.w with ⟨w', x | o⟩ <;> rw [hci] at h3 hb <;> cases h3
      exact hb rfl
    · cases h3

/-! ## Examples -/

/-- A rule that asks the motor module to press a key without saying which. -/
def exBadRule : CRule :=
  ⟨⟨.ok [], .ok [(⟨'+', "g"⟩, .chunk ⟨"_manual", [("cmd", .vv ⟨.str "press_key", Option.none, [], []⟩), ("nokey", .vv ⟨.str "a", Option.none, [], []⟩)]⟩)]⟩, 0, Option.none⟩

/-- A model with this rule and no environment. -/
def exBad : Mach := { exMach exManualReg [("g", exBuf .goal)] with rules := [("bad", exBadRule)], ordered := ["bad"] }

/-- A configuration in which nothing raises a RuntimeError by itself. -/
noncomputable def exTame : Cfg := { exC with emma := fun _ _ _ _ => .error .value }

/-- The state after `k` steps, also if some of them raise exceptions. -/
noncomputable def Sim.onward (C : Cfg) : ℕ → Sim → Option Sim
  | 0, s => some s
  | k + 1, s => match s.step C with
    | .ok s' => Sim.onward C k s'
    | .raised s' _ => Sim.onward C k s'
    | _ => Option.none

theorem onward_reachable : ∀ {k : ℕ} {s s' : Sim}, Reachable C w args t s → Sim.onward C k s = some s' → Reachable C w args t s'
  | 0, s, s', h, ho => by cases ho; exact h
  | k + 1, s, s', h, ho => by
    unfold Sim.onward at ho
    split at ho
    · rename_i hs; exact onward_reachable (h.step hs) ho
    · rename_i hs; exact onward_reachable (h.raised hs) ho
    · cases ho

theorem exBad_none : NoneOfItsOwn .runtime exTame exBad := by
  refine ⟨fun c b h => ?_, fun k p q d h => ?_, fun n r hr h => ?_, fun n r hr h => ?_⟩
  · cases h
  · cases h
  · have hr : (if "bad" = n then some exBadRule else Option.none) = some r := hr
    split at hr <;> cases hr
    cases h
  · have hr : (if "bad" = n then some exBadRule else Option.none) = some r := hr
    split at hr <;> cases hr
    cases h

/-- The step raised a RuntimeError. -/
def misuseOf : Stepped → Bool
  | .raised _ .runtime => true
  | _ => false

theorem misuse_some {r : Stepped} (h : misuseOf r = true) : ∃ s', r = .raised s' .runtime := by
  unfold misuseOf at h
  split at h
  · exact ⟨_, rfl⟩
  · cases h

/-- The rule makes the motor module fail (step 20). When the simulation is continued nonetheless, the rule asks it again, and the attempt
to interrupt it makes the rules fail, too. -/
theorem ex_misused : ∃ s s' : Sim, Reachable exTame exBad Option.none 0 s ∧ s.step exTame = .raised s' .runtime := by
  have hb : ((Sim.onward exTame 27 (Sim.init exBad Option.none 0)).map fun s => misuseOf (s.step exTame)) = some true := by decide +kernel
  cases h1 : Sim.onward exTame 27 (Sim.init exBad Option.none 0) with
  | none => rw [h1] at hb; cases hb
  | some s =>
    rw [h1] at hb
    obtain ⟨s', h2⟩ := misuse_some (Option.some.inj hb)
    exact ⟨s, s', onward_reachable .init h1, h2⟩

example : ∃ s s' : Sim, s.step exTame = .raised s' .runtime ∧ ∃ x, x ≠ .runtime ∧ ModuleFailed s x := by
  obtain ⟨s, s', h1, h2⟩ := ex_misused
  exact ⟨s, s', h2, C88 exBad_none rfl h1 h2⟩

example : ∃ s s' : Sim, s.step exTame = .raised s' .runtime ∧ ¬ Unraised exTame exBad Option.none 0 s := by
  obtain ⟨s, s', h1, h2⟩ := ex_misused
  exact ⟨s, s', h2, fun hu => C88_first exBad_none rfl hu h2⟩

/-- The exception of the motor module is the first one. -/
theorem ex_firstFailure : ∃ s s' x, Unraised exTame exBad Option.none 0 s ∧ s.step exTame = .raised s' x := by
  have hb : (match stepsOf exTame 40 (Sim.init exBad Option.none 0) with | .raised _ _ => true | _ => false) = true := by decide +kernel
  have key : ∀ (n : ℕ) {s : Sim}, Unraised exTame exBad Option.none 0 s → (match stepsOf exTame n s with | .raised _ _ => true | _ => false) = true →
      ∃ s s' x, Unraised exTame exBad Option.none 0 s ∧ s.step exTame = .raised s' x := fun n => by
    induction n with
    | zero => intro s _ h; cases h
    | succ n ih =>
      intro s hu h
      unfold stepsOf at h
      cases hs : s.step exTame with
      | ok s1 => rw [hs] at h; exact ih (hu.step hs) h
      | raised s1 x => exact ⟨s, s1, x, hu, hs⟩
      | _ => rw [hs] at h; cases h
  exact key 40 .init hb

example : ∃ s s' x, Unraised exTame exBad Option.none 0 s ∧ s.step exTame = .raised s' x ∧ x ≠ .runtime := by
  obtain ⟨s, s', x, h1, h2⟩ := ex_firstFailure
  exact ⟨s, s', x, h1, h2, fun hx => C88_first exBad_none rfl h1 (hx ▸ h2)⟩

/-- In the step before, the process of the rules has failed with it. -/
theorem ex_misusing : ∃ s s' : Sim, Reachable exTame exBad Option.none 0 s ∧ FailsIn exTame s s' 2 .runtime := by
  have hb : ((Sim.onward exTame 26 (Sim.init exBad Option.none 0)).map fun s => ((s.points 2).isSome, match s.step exTame with
    | .ok s' => (s'.points 2).isNone && (match (s'.events 2).value with | some (.error .runtime) => true | _ => false)
    | _ => false)) = some (true, true) := by decide +kernel
  cases h1 : Sim.onward exTame 26 (Sim.init exBad Option.none 0) with
  | none => rw [h1] at hb; cases hb
  | some s =>
    rw [h1] at hb
    obtain ⟨h2, h3⟩ := Prod.mk.inj (Option.some.inj hb)
    split at h3
    · rename_i s' hs
      obtain ⟨h3, h4⟩ := Bool.and_eq_true_iff.1 h3
      split at h4
      · rename_i hv
        exact ⟨s, s', onward_reachable .init h1, .inl hs, Option.ne_none_iff_isSome.2 h2, Option.isNone_iff_eq_none.1 h3, hv⟩
      · cases h4
    · cases h3

example : ∃ s s' : Sim, FailsIn exTame s s' 2 .runtime ∧ ∃ x, x ≠ .runtime ∧ ModuleFailed s' x := by
  obtain ⟨s, s', h1, h2⟩ := ex_misusing
  exact ⟨s, s', h2, C88_fails exBad_none rfl h1 h2⟩

/-- A call of `run` after the failure of the module that raises it. -/
theorem ex_misusedRun : ∃ s s' : Sim, Reachable exTame exBad Option.none 0 s ∧ RunCall exTame s 1 s' (.error .runtime) := by
  have hb : ((Sim.onward exTame 20 (Sim.init exBad Option.none 0)).map fun s => match s.setStop 1 with
    | (s1, .ok ()) => misuseOf (stepsOf exTame 8 s1)
    | _ => false) = some true := by decide +kernel
  cases h1 : Sim.onward exTame 20 (Sim.init exBad Option.none 0) with
  | none => rw [h1] at hb; cases hb
  | some s =>
    rw [h1] at hb
    have hb := Option.some.inj hb
    dsimp only at hb
    split at hb
    · rename_i s1 h2
      obtain ⟨s', h3⟩ := misuse_some hb
      exact ⟨s, s', onward_reachable .init h1, .failed h2 (stepsOf_runsOn h3)⟩
    · cases hb

example : ∃ s s' : Sim, RunCall exTame s 1 s' (.error .runtime) ∧ ∃ x, x ≠ .runtime ∧ ModuleFailed s' x := by
  obtain ⟨s, s', h1, h2⟩ := ex_misusedRun
  exact ⟨s, s', h2, C88_run exBad_none rfl h1 h2⟩

example : ∃ s s' : Sim, RunCall exTame s 1 s' (.error .runtime) ∧ ¬ Unraised exTame exBad Option.none 0 s := by
  obtain ⟨s, s', h1, h2⟩ := ex_misusedRun
  exact ⟨s, s', h2, fun hu => C88_firstRun exBad_none rfl hu h2⟩

end Verif.Props
