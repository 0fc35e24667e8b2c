import Verif.Lemmas.Tame
import Verif.Lemmas.Kept
import Verif.Lemmas.Rounding
import Verif.Spec.Outcome
/-! # Rules that were selected are fired or stopped in time -/
namespace Verif
open Verif.Spec

variable {C : Cfg} {w : Mach} {args : Option EnvArgs} {t0 rf : ℚ} {s s' : Sim}

theorem reachable_unraised (h : Unraised C w args t0 s) : Reachable C w args t0 s := by
  induction h with
  | init => exact .init
  | @stop s q _ ih => exact ih.stop (r := (s.setStop q).2) rfl
  | step _ hs ih => exact ih.step hs
  | stopped _ hs ih => exact ih.stopped hs
  | @compile s _ ih => exact ih.compile (r := (compileAtEnd C s).2) rfl

/-- The end of process number 2 raises its exception. -/
theorem step_two {K : Prop} (h : Tame K s) (hi : Inv s) {en : Entry} {q : List Entry} (hq : s.queue = en :: q) (he : en.ev = 2) : ∃ s' x, s.step C = .raised s' x := by
  have hen : en ∈ s.queue := by rw [hq]; exact .head _
  have hv := hi.queued en hen
  rw [he] at hv
  cases hp : s.points 2 with
  | some pt => rw [(h.alive pt hp).2.1] at hv; exact absurd hv (by simp)
  | none =>
    obtain ⟨x, l, h1, h2⟩ := h.dead hp
    have hl : l.getD [] = [] := by rcases h2 with rfl | ⟨_, rfl⟩ <;> rfl
    refine ⟨s.called C en q, x, ?_⟩
    rw [step_eq, hq]
    dsimp only
    have hc : s.cbs en.ev = [] := by rw [he]; unfold Sim.cbs; rw [h1]; exact hl
    rw [if_neg (by rw [hc]; simp), he, h1]
    dsimp only [Option.getD]
    have hd : ((s.called C en q).events en.ev).defused = false := by
      unfold Sim.called
      rw [hc]
      show (fset s.events en.ev _ en.ev).defused = _
      rw [fset_same, he, h1]
    rw [he] at hd
    rw [if_neg (by rw [hd]; simp)]

theorem tame_unraised (h : Unraised C w args t0 s) : Tame False s := by
  induction h with
  | init => exact tame_init w args t0
  | stop q _ ih => exact tame_setStop ih
  | @step s1 s2 hr hs ih =>
    have hi := (fine_reachable (reachable_unraised hr)).1
    exact tame_step ih hi (fun en q hq he => by obtain ⟨_, _, hx⟩ := step_two (C := C) ih hi hq he; rw [hx] at hs; cases hs) hs
  | @stopped s1 s2 hr hs ih =>
    have hi := (fine_reachable (reachable_unraised hr)).1
    exact tame_step ih hi (fun en q hq he => by obtain ⟨_, _, hx⟩ := step_two (C := C) ih hi hq he; rw [hx] at hs; cases hs) hs
  | compile _ ih =>
    unfold compileAtEnd
    split
    · split <;> exact tame_aside ih ⟨rfl, rfl, rfl, rfl, rfl, rfl, rfl, rfl, rfl, rfl⟩
    · exact ih

/-- While a cycle is going on, something is to happen no later than its next report. -/
theorem head_due {st : Stage} {d : ℚ} (hf : Fine rf s) (ha : Awake (fun _ => False) s) (ht : Tame False s) (hst : stageOf rf (timedReports s.trace) = some st)
    (hd : st.due rf = some d) (hn : s.now ≤ d) : ∃ en q, s.queue = en :: q ∧ en.time ≤ d := by
  obtain ⟨hi, st', c, hr⟩ := hf
  have := hr.stage
  rw [hst] at this
  cases this
  have hne : st ≠ .idle := fun h => by rw [h] at hd; cases hd
  have key : (∃ en ∈ s.queue, en.time ≤ d) → ∃ en q, s.queue = en :: q ∧ en.time ≤ d := by
    rintro ⟨en, hen, hle⟩
    cases hq : s.queue with
    | nil => rw [hq] at hen; cases hen
    | cons x q =>
      refine ⟨x, q, rfl, ?_⟩
      rw [hq] at hen
      rcases List.mem_cons.1 hen with rfl | hen
      · exact hle
      · have := hi.sorted
        rw [hq] at this
        exact (upTo_le ((List.pairwise_cons.1 this).1 en hen)).trans hle
  refine key ?_
  cases hc : s.points c with
  | some pt =>
    have hl := hr.child pt hc
    cases pt with
    | localNew name g => exact absurd hl.1.2 hne
    | localWait name e k =>
      obtain ⟨_, st', ⟨_, hdue⟩, _⟩ := hl
      obtain ⟨_, _, _, en, hen, _, _, he⟩ := waits_for hi ha hc rfl
      exact ⟨en, hen, by rw [he, hdue d hd]⟩
    | _ => exact hl.elim
  | none =>
    cases h2 : s.points 2 with
    | some pt =>
      rcases hr.main pt h2 with ⟨hpt, htar⟩ | ⟨_, hidle, _⟩
      · have hv := hr.over pt h2 hpt hc
        have hw := ha.woken 2 pt h2 id
        rw [htar] at hw
        obtain ⟨en, hen, he⟩ := ha.queued c hv (open_of_mem hw)
        have hp := (ht.alive pt h2).2.2.2
        rw [htar] at hp
        exact ⟨en, hen, (hp en hen he).trans hn⟩
      · exact absurd hidle hne
    | none =>
      obtain ⟨x, l, h1, rfl | ⟨h, _⟩⟩ := ht.dead h2
      · obtain ⟨en, hen, he⟩ := ha.queued 2 (by rw [h1]; rfl) (by rw [h1]; rfl)
        exact ⟨en, hen, (ht.self en hen he).trans hn⟩
      · exact h.elim

/-- After a report, the next one is not due before. -/
theorem due_next {st st' : Stage} {u d d' : ℚ} {a : Act} (hrf : 0 ≤ rf) (hg : ∀ t, st = .conf t → round4 t = t) (h : st.next rf u a = some st') (ha : Cyclic a)
    (hd : st'.due rf = some d') : u ≤ d' := by
  cases st <;> cases a <;> simp [Stage.next, Cyclic] at h ha
  · obtain ⟨_, rfl⟩ := h; cases hd; exact le_rfl
  · obtain ⟨rfl, rfl⟩ := h
    cases hd
    have := round4_mono (x := u) (y := u + rf) (by linarith)
    rwa [hg u rfl] at this
  · obtain ⟨_, rfl⟩ := h; cases hd
  · obtain ⟨_, rfl⟩ := h; cases hd
  · obtain ⟨rfl, rfl⟩ := h; cases hd; exact le_rfl
  · obtain ⟨_, rfl⟩ := h; cases hd
  · obtain ⟨_, rfl⟩ := h; cases hd

theorem timedReports_snoc (l : List (ℚ × Ev)) (t : ℚ) (e : Ev) : timedReports (l ++ [(t, e)]) = timedReports l ++ if Cyclic e.act then [(e.time, e.act)] else [] := by
  unfold timedReports
  rw [List.map_append, List.filter_append]
  congr 1
  by_cases h : Cyclic e.act <;> simp [h]

/-- The clock does not go past the next report of a cycle. -/
theorem due_unraised (hrf : 0 ≤ C.ruleFiring) (h : Unraised C w args t0 s) : ∀ st d, stageOf C.ruleFiring (timedReports s.trace) = some st → st.due C.ruleFiring = some d → s.now ≤ d := by
  have step : ∀ {s s' : Sim}, Unraised C w args t0 s → Unraised C w args t0 s' → (s.step C = .ok s' ∨ s.step C = .stopped s') → 
      (∀ st d, stageOf C.ruleFiring (timedReports s.trace) = some st → st.due C.ruleFiring = some d → s.now ≤ d) →
      ∀ st d, stageOf C.ruleFiring (timedReports s'.trace) = some st → st.due C.ruleFiring = some d → s'.now ≤ d := by
    intro s s' hu hu' hs ih st d hst hd
    have hr := reachable_unraised hu
    have hf := fine_reachable hr
    have hone : OneMore s s' := by
      obtain ⟨h1, h2, _⟩ := apart_step hf (apart_reachable hr)
      rcases hs with hs | hs
      · exact (h1 _ hs).2
      · exact (h2 _ hs).2
    have hnow : ∀ en q, s.queue = en :: q → s'.now = en.time := fun en q hq => by
      rcases hs with hs | hs
      · rcases step_cases hs with ⟨h, _⟩ | ⟨en', q', hq', ⟨_, h⟩ | ⟨hstop, h | ⟨_, h⟩⟩⟩ <;> cases h
        rw [hq] at hq'; cases hq'
        exact (fine_called C hf hq hstop).2.now
      · rcases step_cases hs with ⟨h, _⟩ | ⟨en', q', hq', ⟨_, h⟩ | ⟨hstop, h | ⟨_, h⟩⟩⟩ <;> cases h
        rw [hq] at hq'; cases hq'
        rfl
    have same : timedReports s'.trace = timedReports s.trace → s'.now ≤ d := fun hsame => by
      rw [hsame] at hst
      obtain ⟨en, q, hq, hle⟩ := head_due hf (awake_reachable hr) (tame_unraised hu) hst hd (ih st d hst hd)
      rw [hnow en q hq]; exact hle
    rcases hone with h1 | ⟨e, _, h1⟩
    · exact same (by rw [h1])
    · by_cases hc : Cyclic e.act
      · have hte : s'.now = e.time := ((fine_reachable (reachable_unraised hu')).1.trace (s'.now, e) (by rw [h1]; simp)).1
        obtain ⟨_, st0, c, hr0⟩ := hf
        rw [h1, timedReports_snoc, if_pos hc, stageOf_append, hr0.stage] at hst
        have hnx : st0.next C.ruleFiring e.time e.act = some st := hst
        rw [hte]
        refine due_next (d := 0) hrf (fun t ht => ?_) hnx hc hd
        obtain ⟨_, rest, _, _, hp⟩ := stage_prefix (rf := C.ruleFiring) _ (fun a ha => by simpa using (List.mem_filter.1 ha).2) st0 hr0.stage
        rw [ht] at hp
        exact hp.1
      · exact same (by rw [h1, timedReports_snoc, if_neg hc, List.append_nil])
  induction h with
  | init =>
    intro st d hst hd
    rw [(apart_init w args t0).2] at hst
    cases hst; cases hd
  | stop q _ ih =>
    have : ∀ s : Sim, (s.setStop q).1.trace = s.trace ∧ (s.setStop q).1.now = s.now := fun s => by unfold Sim.setStop; split <;> exact ⟨rfl, rfl⟩
    intro st d
    rw [(this _).1, (this _).2]
    exact ih st d
  | step hu hs ih => exact step hu (hu.step hs) (.inl hs) ih
  | stopped hu hs ih => exact step hu (hu.stopped hs) (.inr hs) ih
  | @compile s1 _ ih =>
    have : (compileAtEnd C s1).1.trace = s1.trace ∧ (compileAtEnd C s1).1.now = s1.now := by
      unfold compileAtEnd
      split
      · split <;> exact ⟨rfl, rfl⟩
      · exact ⟨rfl, rfl⟩
    intro st d
    rw [this.1, this.2]
    exact ih st d

end Verif
