import Verif.Lemmas.Kept
import Verif.Props.Simulation
/-! # Property C60: announced events are reported in time -/
namespace Verif.Props
open Verif Verif.Spec

variable {C : Cfg} {w : Mach} {args : Option EnvArgs} {t0 : ℚ} {s s' : Sim} {p : ℕ} {e : Verif.Ev}

theorem reachable_leads (h : Reachable C w args t0 s) (hl : Stepped.leads (s.step C) s') : Reachable C w args t0 s' := by
  rcases hl with hl | hl | ⟨x, hl⟩
  · exact h.step hl
  · exact h.stopped hl
  · exact h.raised hl

theorem reachable_goesOn (h : Reachable C w args t0 s) (hg : GoesOn C s s') : Reachable C w args t0 s' := by
  induction hg with
  | refl => exact h
  | step _ hl ih => exact reachable_leads ih hl
  | stop t _ ih => exact ih.stop (r := (Sim.setStop _ t).2) rfl
  | compile _ ih => exact ih.compile (r := (compileAtEnd C _).2) rfl

/-- C60, one step. An event that a process has announced does not lie in the past, and something is left to do. The next step either
interrupts the process, or leaves it as it is, or reports the event, and nothing else, at its time. (Events that carry nothing are not
reported.) -/
theorem C60 (h : Reachable C w args t0 s) (ha : Announced s p e) : s.now ≤ e.time ∧ s.step C ≠ .empty ∧
    ∀ s', Stepped.leads (s.step C) s' → Interrupts s p ∨ Announced s' p e ∨ (s'.now = e.time ∧ (e.act = .unknown ∨ s'.trace = s.trace ++ [(e.time, e)])) := by
  obtain ⟨pt, hp, he⟩ := announced_iff.1 ha
  have hf := fine_reachable h
  have haw := awake_reachable h
  obtain ⟨_, _, _, en, hen, _, h1, h2⟩ := waits_for hf.1 haw hp he
  refine ⟨h2 ▸ h1, fun hs => ?_, fun s' hs => ?_⟩
  · rcases step_cases hs with ⟨_, hq⟩ | ⟨_, _, _, ⟨_, hr⟩ | ⟨_, hr | ⟨_, hr⟩⟩⟩
    · rw [hq] at hen; cases hen
    · cases hr
    · cases hr
    · cases hr
  · rcases (kept_step hf (apart_reachable h) haw hp he hs).2 with h | h | h
    · exact .inl h
    · exact .inr (.inl (announced_iff.2 ⟨pt, h, he⟩))
    · exact .inr (.inr h)

/-- Reports are not withdrawn. -/
theorem C60_trace (h : Reachable C w args t0 s) (hg : GoesOn C s s') : s.trace <+: s'.trace := by
  induction hg with
  | refl => exact List.prefix_rfl
  | @step s1 s2 hg hl ih =>
    refine ih.trans ?_
    have hr := reachable_goesOn h hg
    obtain ⟨h1, h2, h3⟩ := apart_step (fine_reachable hr) (apart_reachable hr)
    have : OneMore s1 s2 := by
      rcases hl with hl | hl | ⟨x, hl⟩
      · exact (h1 _ hl).2
      · exact (h2 _ hl).2
      · exact (h3 _ _ hl).2
    rcases this with h | ⟨x, _, h⟩
    · rw [h]
    · rw [h]; exact List.prefix_append _ _
  | @stop s1 t _ ih =>
    refine ih.trans ?_
    unfold Sim.setStop
    split <;> exact List.prefix_rfl
  | @compile s1 hg ih =>
    rw [(apart_compile (apart_reachable (reachable_goesOn h hg))).2]; exact ih

/-- C60, all runs. However a simulation goes on, an announced event is still announced, unless its process was interrupted, or it has been
reported at its time. -/
theorem C60_kept (h : Reachable C w args t0 s) (ha : Announced s p e) (hu : e.act ≠ .unknown) (hg : GoesOn C s s') :
    Announced s' p e ∨ InterruptedBetween C s s' p ∨ ∃ l, s'.trace = s.trace ++ l ∧ (e.time, e) ∈ l := by
  induction hg with
  | refl => exact .inl ha
  | @step s1 s2 hg hl ih =>
    have hr := reachable_goesOn h hg
    rcases ih with ih | ⟨a, b, h1, h2, h3, h4⟩ | ⟨l, h1, h2⟩
    · rcases (C60 hr ih).2.2 s2 hl with h1 | h1 | ⟨_, h1 | h1⟩
      · exact .inr (.inl ⟨s1, s2, hg, h1, hl, .refl _⟩)
      · exact .inl h1
      · exact absurd h1 hu
      · obtain ⟨l, hl⟩ := C60_trace h hg
        exact .inr (.inr ⟨l ++ [(e.time, e)], by rw [h1, ← hl, List.append_assoc], by simp⟩)
    · exact .inr (.inl ⟨a, b, h1, h2, h3, h4.step hl⟩)
    · obtain ⟨l', hl'⟩ := C60_trace hr (.step (.refl s1) hl)
      exact .inr (.inr ⟨l ++ l', by rw [← hl', h1, List.append_assoc], List.mem_append_left _ h2⟩)
  | @stop s1 t hg ih =>
    have hsame : (s1.setStop t).1.points = s1.points ∧ (s1.setStop t).1.trace = s1.trace := by unfold Sim.setStop; split <;> exact ⟨rfl, rfl⟩
    rcases ih with ih | ⟨a, b, h1, h2, h3, h4⟩ | h1
    · left; unfold Announced; rw [hsame.1]; exact ih
    · exact .inr (.inl ⟨a, b, h1, h2, h3, h4.stop t⟩)
    · rw [hsame.2]; exact .inr (.inr h1)
  | @compile s1 hg ih =>
    have hsame : (compileAtEnd C s1).1.points = s1.points ∧ (compileAtEnd C s1).1.trace = s1.trace := by
      unfold compileAtEnd
      split
      · split <;> exact ⟨rfl, rfl⟩
      · exact ⟨rfl, rfl⟩
    rcases ih with ih | ⟨a, b, h1, h2, h3, h4⟩ | h1
    · left; unfold Announced; rw [hsame.1]; exact ih
    · exact .inr (.inl ⟨a, b, h1, h2, h3, h4.compile⟩)
    · rw [hsame.2]; exact .inr (.inr h1)

/-- C60. By the time the clock has gone past the time of an announced event, or nothing is left to do, the event has been reported, unless its
process was interrupted. -/
theorem C60_reported (h : Reachable C w args t0 s) (ha : Announced s p e) (hu : e.act ≠ .unknown) (hg : GoesOn C s s') (hn : e.time < s'.now ∨ s'.step C = .empty) :
    InterruptedBetween C s s' p ∨ ∃ l, s'.trace = s.trace ++ l ∧ (e.time, e) ∈ l := by
  rcases C60_kept h ha hu hg with h1 | h1
  · have := C60 (reachable_goesOn h hg) h1
    rcases hn with hn | hn
    · exact absurd this.1 (not_le.2 hn)
    · exact absurd hn this.2.1
  · exact h1

/-- In the example, 25 steps after the beginning, the hand has announced that the movement is prepared after 200 ms; the clock is at 50 ms. -/
theorem ex_announced : ∃ s e, stepsOf exC 25 exSim = .ok s ∧ Announced s 25 e ∧ e.time = 1 / 5 ∧ e.act.kind = .prepared ∧ s.now = 1 / 20 := by
  have h : (match stepsOf exC 25 exSim with | .ok s => some (((s.points 25).bind Pt.event).map (fun e => (e.time, e.act.kind)), s.now) | _ => Option.none) =
      some (some (1 / 5, .prepared), 1 / 20) := by decide +kernel
  cases hs : stepsOf exC 25 exSim with
  | ok s =>
    rw [hs] at h
    simp only [Option.some.injEq, Prod.mk.injEq, Option.map_eq_some_iff, Option.bind_eq_some_iff] at h
    obtain ⟨⟨e, ⟨pt, hp, he⟩, h1, h2⟩, h3⟩ := h
    exact ⟨s, e, rfl, announced_iff.2 ⟨pt, hp, he⟩, h1, h2, h3⟩
  | stopped s => rw [hs] at h; cases h
  | raised s x => rw [hs] at h; cases h
  | empty => rw [hs] at h; cases h

theorem goesOn_steps {n : ℕ} (h : stepsOf C n s = .ok s') : GoesOn C s s' := by
  have key : ∀ n s1, GoesOn C s s1 → stepsOf C n s1 = .ok s' → GoesOn C s s' := by
    intro n
    induction n with
    | zero => intro s1 hg he; cases he; exact hg
    | succ n ih =>
      intro s1 hg he
      rw [stepsOf_succ] at he
      cases hs : s1.step C with
      | ok s2 => rw [hs] at he; exact ih s2 (.step hg (.inl hs)) he
      | stopped s2 => rw [hs] at he; cases he
      | raised s2 x => rw [hs] at he; cases he
      | empty => rw [hs] at he; cases he
  exact key n s (.refl s) h

/-- After 75 more steps the clock is past that time, and nobody was interrupted or the event has been reported. -/
example : ∃ s s' e, Reachable exC exPresser exEnvArgs 0 s ∧ Announced s 25 e ∧ e.act ≠ .unknown ∧ GoesOn exC s s' ∧ e.time < s'.now ∧
    (InterruptedBetween exC s s' 25 ∨ ∃ l, s'.trace = s.trace ++ l ∧ (e.time, e) ∈ l) := by
  obtain ⟨s, e, hs, ha, ht, hk, _⟩ := ex_announced
  have h : (match (match stepsOf exC 25 exSim with | .ok s => stepsOf exC 75 s | x => x) with | .ok s => some s.now | _ => Option.none) = some (2 / 5) := by decide +kernel
  rw [hs] at h
  dsimp only at h
  have hu : e.act ≠ .unknown := fun hu => by rw [hu] at hk; cases hk
  cases hs' : stepsOf exC 75 s with
  | ok s' =>
    rw [hs'] at h
    have hlt : e.time < s'.now := by rw [ht, Option.some.inj h]; norm_num
    exact ⟨s, s', e, stepsOf_ok .init hs, ha, hu, goesOn_steps hs', hlt, C60_reported (stepsOf_ok .init hs) ha hu (goesOn_steps hs') (.inl hlt)⟩
  | stopped s => rw [hs'] at h; cases h
  | raised s x => rw [hs'] at h; cases h
  | empty => rw [hs'] at h; cases h

end Verif.Props
