import Verif.Lemmas.Aware
import Verif.Props.Waiting
/-! # Property C61: rules react to what modules report -/
namespace Verif.Props
open Verif Verif.Spec

variable {C : Cfg} {w : Mach} {args : Option EnvArgs} {t0 : ℚ} {s s' : Sim}

/-- C61, the full statement: when nothing is left to happen, no rule matches. -/
def C61_full : Prop := ∀ (C : Cfg) (w : Mach) (args : Option EnvArgs) (t0 : ℚ) (s : Sim), Unraised C w args t0 s → s.step C = .empty →
  (selectIn C { s.w with bv := BV.init }).2 = .ok Option.none

/-- C61_partial. Whenever the clock has gone past a time at which a module reported something, rules were tried at that time, or a rule was under
way, which will be fired or stopped later. Missing: that rules are tried after the last report; the refutation below shows a simulation in
which they are not. -/
theorem C61_partial (h : Unraised C w args t0 s) {t : ℚ} (ht : t < s.now) : Heeded (s.trace.filter (·.1 ≤ t)) t := heeded_before h t ht

/-- C61. When nothing is left to happen, rules have been tried at the time of the last report of a module, if the clock has not gone further. -/
theorem C61_end (h : Unraised C w args t0 s) (he : s.step C = .empty) (hs : ∃ x ∈ s.trace, x.1 = s.now ∧ x.2.proc ≠ procName) : ∃ y ∈ s.trace, y.1 = s.now ∧ y.2.act = .conflict := by
  have hq : s.queue = [] := by
    rcases step_cases he with ⟨_, hq⟩ | ⟨_, _, _, ⟨_, hr⟩ | ⟨_, hr | ⟨_, hr⟩⟩⟩
    · exact hq
    all_goals cases hr
  exact heeded_end h hq hs

/-- C61. The same whenever nothing is left to happen before the clock goes on, for instance at the moment where `run` is stopped. -/
theorem C61_now (h : Unraised C w args t0 s) (hq : ∀ en ∈ s.queue, s.now < en.time) : Heeded s.trace s.now := heeded_now h hq

/-! ## A rule that is overlooked -/

/-- `?visual> buffer full`, without actions. -/
def exSeeRule : CRule := ⟨⟨.ok [(⟨'?', "visual"⟩, .dict [("buffer", "full")])], .ok []⟩, 0, Option.none⟩

/-- A model with this rule and a visual buffer. -/
def exSeer : Mach :=
  { exMach [("_visuallocation", ["color", "screen_x", "screen_y", "value"]), ("_visual", ["cmd", "color", "screen_pos", "value"])] [("visual", { exBuf .visual with focus := (320, 180) })] with
    rules := [("see", exSeeRule)], ordered := ["see"], env := some ⟨0, (320, 180), [], [], [], Option.none, Option.none⟩ }

/-- Six screens at time 0, the last one with a letter where the eyes look. -/
def exSeeArgs : Option EnvArgs := some ⟨.list (List.replicate 5 (.screen []) ++ [.screen [("x", ⟨some "x", some (320, 180), Option.none, Option.none, Option.none, Option.none, []⟩)]]), .single (.many []), .single 0, 0⟩

/-- Encoding takes no time, as with `eye_mvt_scaling_parameter` 0. -/
noncomputable def exSeeC : Cfg := { exC with autoDelay := fun _ _ => 0 }

/-- The simulation. -/
noncomputable def exSee : Sim := Sim.init exSeer exSeeArgs 0

theorem stepsOf_unraised {n : ℕ} (h : Unraised C w args t0 s) (he : stepsOf C n s = .ok s') : Unraised C w args t0 s' := by
  induction n generalizing s with
  | zero => cases he; exact h
  | succ n ih =>
    rw [stepsOf_succ] at he
    cases hs : s.step C with
    | ok s2 => rw [hs] at he; exact ih (h.step hs) he
    | stopped s2 => rw [hs] at he; cases he
    | raised s2 x => rw [hs] at he; cases he
    | empty => rw [hs] at he; cases he

/-- The letter is put into the buffer after rules were tried for the last time, and nothing happens any more. -/
theorem ex_overlooked : ∃ s, Unraised exSeeC exSeer exSeeArgs 0 s ∧ s.step exSeeC = .empty ∧ s.trace.map (·.2.act.kind) =
      [.conflict, .starting, .noRule, .printed, .printed, .conflict, .noRule, .printed, .printed, .printed, .printed, .conflict, .noRule, .other] ∧
    ∃ n r, (selectIn exSeeC { s.w with bv := BV.init }).2 = .ok (some (n, r)) := by
  have h : (match stepsOf exSeeC 87 exSee with
      | .ok s => some (s.queue.isEmpty, s.trace.map (·.2.act.kind), match (selectIn exSeeC { s.w with bv := BV.init }).2 with | .ok (some _) => true | _ => false)
      | _ => Option.none) =
      some (true, [.conflict, .starting, .noRule, .printed, .printed, .conflict, .noRule, .printed, .printed, .printed, .printed, .conflict, .noRule, .other], true) := by decide +kernel
  cases hs : stepsOf exSeeC 87 exSee with
  | ok s =>
    rw [hs] at h
    simp only [Option.some.injEq, Prod.mk.injEq] at h
    obtain ⟨h1, h2, h3⟩ := h
    refine ⟨s, stepsOf_unraised .init hs, ?_, h2, ?_⟩
    · rw [step_eq, List.isEmpty_iff.1 h1]
    · rcases hsel : (selectIn exSeeC { s.w with bv := BV.init }).2 with x | _ | ⟨n, r⟩
      · rw [hsel] at h3; cases h3
      · rw [hsel] at h3; cases h3
      · exact ⟨n, r, rfl⟩
  | stopped s => rw [hs] at h; cases h
  | raised s x => rw [hs] at h; cases h
  | empty => rw [hs] at h; cases h

/-- C61 refuted: the activation that comes between the decision that no rule matches and the end of the cycle is lost. -/
theorem C61_refuted : ¬ C61_full := fun h => by
  obtain ⟨s, h1, h2, _, n, r, h3⟩ := ex_overlooked
  rw [h _ _ _ _ s h1 h2] at h3
  cases h3

/-! ## Examples -/

/-- In the example, the clock goes on after modules reported something at its beginning, and rules were tried. -/
example : ∃ s, Unraised exC exPresser exEnvArgs 0 s ∧ 0 < s.now ∧ (∃ x ∈ s.trace.filter (·.1 ≤ 0), x.1 = 0 ∧ x.2.proc ≠ procName) ∧ Heeded (s.trace.filter (·.1 ≤ 0)) 0 := by
  have h : (match stepsOf exC 25 exSim with | .ok s => some (decide (0 < s.now), s.trace.any (fun x => x.1 ≤ 0 && x.1 = 0 && x.2.proc ≠ procName)) | _ => Option.none) = some (true, true) := by decide +kernel
  cases hs : stepsOf exC 25 exSim with
  | ok s =>
    rw [hs] at h
    simp only [Option.some.injEq, Prod.mk.injEq, decide_eq_true_eq] at h
    have hu := stepsOf_unraised .init hs
    obtain ⟨x, hx, hx'⟩ := List.any_eq_true.1 h.2
    simp only [Bool.and_eq_true, decide_eq_true_eq] at hx'
    exact ⟨s, hu, h.1, ⟨x, List.mem_filter.2 ⟨hx, by simpa using hx'.1.1⟩, hx'.1.2, hx'.2⟩, C61_partial hu h.1⟩
  | stopped s => rw [hs] at h; cases h
  | raised s x => rw [hs] at h; cases h
  | empty => rw [hs] at h; cases h

/-- The end of the simulation above. -/
example : ∃ s, Unraised exSeeC exSeer exSeeArgs 0 s ∧ s.step exSeeC = .empty ∧ ∃ y ∈ s.trace, y.1 = s.now ∧ y.2.act = .conflict := by
  have h : (match stepsOf exSeeC 87 exSee with
      | .ok s => some (s.queue.isEmpty, s.trace.any (fun x => x.1 = s.now && x.2.proc ≠ procName))
      | _ => Option.none) = some (true, true) := by decide +kernel
  cases hs : stepsOf exSeeC 87 exSee with
  | ok s =>
    rw [hs] at h
    simp only [Option.some.injEq, Prod.mk.injEq] at h
    have hu := stepsOf_unraised (t0 := 0) .init hs
    have he : s.step exSeeC = .empty := by rw [step_eq, List.isEmpty_iff.1 h.1]
    obtain ⟨x, hx, hx'⟩ := List.any_eq_true.1 h.2
    simp only [Bool.and_eq_true, decide_eq_true_eq] at hx'
    exact ⟨s, hu, he, C61_end hu he ⟨x, hx, hx'.1, hx'.2⟩⟩
  | stopped s => rw [hs] at h; cases h
  | raised s x => rw [hs] at h; cases h
  | empty => rw [hs] at h; cases h

end Verif.Props
