import Verif.Lemmas.Propped
import Verif.Spec.Quiet
import Verif.Props.Requests
import Verif.Props.Outcome
import Verif.Props.Splitting
/-! # When nothing is left to happen (property C84) -/
namespace Verif.Props
open Verif Verif.Spec

variable {C : Cfg} {w : Mach} {args : Option EnvArgs} {t0 : ℚ} {s s' : Sim} {p : ℕ}

theorem queue_of_empty (he : s.step C = .empty) : s.queue = [] := by
  rcases step_cases he with ⟨_, hq⟩ | ⟨_, _, _, ⟨_, h⟩ | ⟨_, h | ⟨_, h⟩⟩⟩
  · exact hq
  · cases h
  · cases h
  · cases h

theorem empty_of_queue (hq : s.queue = []) : s.step C = .empty := by rw [step_eq, hq]

/-- C84. When nothing is left to happen, nothing is under way: every process that has not ended waits to be activated, and nothing has
activated it. No request is being carried out, no rule is about to fire, and the process of the environment has ended. Exceptions may have
been raised before. -/
theorem C84 (h : Reachable C w args t0 s) (he : s.step C = .empty) (hp : s.points p ≠ Option.none) : AwaitsCall s p := by
  obtain ⟨pt, hp⟩ := Option.ne_none_iff_exists'.1 hp
  obtain ⟨h1, h2⟩ := idle_of_empty h (queue_of_empty he) hp
  refine ⟨?_, ?_⟩
  · rcases h1 with rfl | ⟨n, rfl⟩
    · exact .inl hp
    · exact .inr ⟨n, hp⟩
  · unfold Sim.triggered at h2
    exact Option.isSome_eq_false_iff.1 h2 |> Option.isNone_iff_eq_none.1

/-- Without exceptions, the process of the rules is one of those that wait. -/
theorem C84_rules (h : Unraised C w args t0 s) (he : s.step C = .empty) : s.points 2 = some .procIdle ∧ (s.events (s.target 2)).value = Option.none := by
  have hr := reachable_unraised h
  have hq := queue_of_empty he
  obtain ⟨pt, h2, -⟩ := stuck (aware_unraised h) (fine_reachable hr) (awake_reachable hr) (tame_unraised h) (by rw [hq]; simp)
  obtain ⟨⟨h3⟩ | ⟨n, h3⟩, h4⟩ := C84 (p := 2) hr he (by rw [h2]; simp)
  · exact ⟨by assumption, h4⟩
  · obtain ⟨st, c, hc⟩ := (fine_reachable hr).2
    rcases hc.main _ h3 with ⟨h5, _⟩ | ⟨h5, _⟩
    · rcases h5 with h5 | h5 <;> cases h5
    · rcases h5 with h5 | h5
      · cases h5
      · exact absurd h5 (by simp [Pt.resting])

/-- Without exceptions, no request is left for a module that waits. -/
theorem C84_requests (hw : (w.bufs.map Prod.fst).Nodup) (hf : ∀ n, requestsFor n w.procs = []) (h : Unraised C w args t0 s) (he : s.step C = .empty) (hp : s.points p ≠ Option.none) :
    p = 2 ∨ ∃ n, s.points p = some (.extraIdle n) ∧ requestsFor n s.startedList = [] := by
  have hr := reachable_unraised h
  have hq := queue_of_empty he
  rcases (C84 hr he hp).1 with h1 | ⟨n, h1⟩
  · obtain ⟨st, c, hc⟩ := (fine_reachable hr).2
    left
    by_cases hpc : p = c
    · subst hpc
      exact (hc.child _ h1).elim
    · exact hc.mods p _ h1 hpc
  · exact .inr ⟨n, h1, C64_idle_partial hw hf h (by rw [hq]; simp) h1⟩

/-- Nothing is scheduled but the end of calls of `run`. -/
def Done (s : Sim) : Prop := (∀ en ∈ s.queue, .stop ∈ s.cbs en.ev ∧ en.ev < s.next) ∧ s.queue.Pairwise (fun a b => a.ev ≠ b.ev)

theorem only_refl (s : Sim) : OnlyClock s s := ⟨rfl, rfl, rfl, rfl, rfl, rfl⟩

theorem done_empty (h : s.queue = []) : Done s := by
  unfold Done; rw [h]; simp

theorem pairwise_insertEntry {a : Entry} {l : List Entry} (h : l.Pairwise (fun a b => a.ev ≠ b.ev)) (ha : ∀ b ∈ l, a.ev ≠ b.ev) : (insertEntry a l).Pairwise (fun a b => a.ev ≠ b.ev) := by
  induction l with
  | nil => exact List.pairwise_singleton _ _
  | cons x r ih =>
    unfold insertEntry
    rw [List.pairwise_cons] at h
    split
    · refine List.pairwise_cons.2 ⟨fun b hb => ?_, ih h.2 (fun b hb => ha b (.tail _ hb))⟩
      rcases (mem_insertEntry _ _ _).1 hb with rfl | hb
      · exact (ha x (.head _)).symm
      · exact h.1 b hb
    · exact List.pairwise_cons.2 ⟨ha, List.pairwise_cons.2 h⟩

theorem done_step (h2 : Done s) (hs : Stepped.leads (s.step C) s') : OnlyClock s s' ∧ Done s' ∧ s'.w = s.w := by
  rcases step_cases (C := C) (s := s) rfl with ⟨h0, _⟩ | ⟨en, q, hq, ⟨_, h0⟩ | ⟨hst, _⟩⟩
  · rw [h0] at hs; rcases hs with hs | hs | ⟨_, hs⟩ <;> cases hs
  · rw [h0] at hs
    rcases hs with hs | hs | ⟨_, hs⟩ <;> cases hs
    refine ⟨⟨rfl, rfl, rfl, rfl, rfl, rfl⟩, ?_, rfl⟩
    obtain ⟨h3, h4⟩ := h2
    rw [hq] at h3 h4
    rw [List.pairwise_cons] at h4
    refine ⟨fun en' hen' => ?_, h4.2⟩
    have hen' : en' ∈ q := hen'
    obtain ⟨h5, h6⟩ := h3 en' (.tail _ hen')
    refine ⟨?_, h6⟩
    unfold Sim.cbs at h5 ⊢
    show _ ∈ ((fset s.events en.ev _ en'.ev).callbacks).getD []
    rw [fset_other _ _ (fun he => h4.1 en' hen' he.symm)]
    exact h5
  · exact absurd (h2.1 en (by rw [hq]; exact .head _)).1 hst

theorem done_setStop (h2 : Done s) (t : ℚ) : OnlyClock s (s.setStop t).1 ∧ Done (s.setStop t).1 ∧ (s.setStop t).1.w = s.w := by
  unfold Sim.setStop
  split
  · exact ⟨only_refl _, h2, rfl⟩
  · refine ⟨⟨rfl, rfl, rfl, rfl, rfl, rfl⟩, ⟨fun en hen => ?_, ?_⟩, rfl⟩
    · have hen : en ∈ insertEntry _ s.queue := hen
      rcases (mem_insertEntry _ _ _).1 hen with rfl | hen
      · refine ⟨?_, Nat.lt_succ_self _⟩
        show _ ∈ ((fset s.events s.next _ s.next).callbacks).getD []
        rw [fset_same]
        exact .head _
      · obtain ⟨h5, h6⟩ := h2.1 en hen
        refine ⟨?_, h6.trans (Nat.lt_succ_self _)⟩
        show _ ∈ ((fset s.events s.next _ en.ev).callbacks).getD []
        rw [fset_other _ _ (ne_of_lt h6)]
        exact h5
    · exact pairwise_insertEntry h2.2 (fun b hb he => absurd (h2.1 b hb).2 (by rw [← he]; exact lt_irrefl _))

theorem done_compile (h2 : Done s) : OnlyClock s (compileAtEnd C s).1 ∧ Done (compileAtEnd C s).1 := by
  obtain ⟨-, h3, h4⟩ := compileIn_rest C s.w
  have h5 := compileIn_mems C s.w
  have key : ∀ w', w' = (compileIn C s.w).1 → OnlyClock s { s with w := w' } := fun w' hw => by
    subst hw
    exact ⟨rfl, h4, h5, by show s.started.getD _ = s.started.getD _; rw [h3], rfl, rfl⟩
  unfold compileAtEnd
  split
  · split
    · next he => exact ⟨key _ (by rw [he]), h2⟩
    · next he => exact ⟨key _ (by rw [he]), h2⟩
  · exact ⟨only_refl _, h2⟩

theorem only_trans {s1 : Sim} (h : OnlyClock s s1) (h' : OnlyClock s1 s') : OnlyClock s s' :=
  ⟨h'.trace.trans h.trace, h'.bufs.trans h.bufs, h'.mems.trans h.mems, h'.requests.trans h.requests, h'.points.trans h.points, h'.target.trans h.target⟩

/-- Nothing happens any more, whatever is called: only the clock goes on, and rules may be compiled. -/
theorem C84_forever (he : s.step C = .empty) (hg : GoesOn C s s') : OnlyClock s s' := by
  have key : OnlyClock s s' ∧ Done s' := by
    induction hg with
    | refl => exact ⟨only_refl _, done_empty (queue_of_empty he)⟩
    | step _ hs ih => exact ⟨only_trans ih.1 (done_step ih.2 hs).1, (done_step ih.2 hs).2.1⟩
    | stop t _ ih => exact ⟨only_trans ih.1 (done_setStop ih.2 t).1, (done_setStop ih.2 t).2.1⟩
    | compile _ ih => exact ⟨only_trans ih.1 (done_compile ih.2).1, (done_compile ih.2).2⟩
  exact key.1

/-- A further call of `run` comes to an end at the given time, with nothing left to happen, and without compilation the model is as before. -/
theorem C84_run {t : ℚ} {r : Except PyErr Unit} (he : s.step C = .empty) (ht : s.now < t) (hr : RunCall C s t s' r) :
    s'.now = t ∧ s'.step C = .empty ∧ OnlyClock s s' ∧ (C.compilation = false → s'.w = s.w ∧ r = .ok ()) := by
  have hq := queue_of_empty he
  obtain ⟨k1, k2, k3⟩ := done_setStop (done_empty hq) t
  have hset : ((s.setStop t).1.step C = .stopped ((s.setStop t).1.taken ⟨t, true, s.next⟩ [])) ∧ (s.setStop t).2 = .ok () := by
    unfold Sim.setStop
    rw [if_neg (not_le.2 ht)]
    refine ⟨?_, rfl⟩
    have hq' : ((s.alloc ⟨some (.ok .nothing), false, some [.stop]⟩).schedule s.next true (t - s.now)).queue = [⟨t, true, s.next⟩] := by
      show insertEntry ⟨s.now + (t - s.now), true, s.next⟩ s.queue = _
      rw [hq, add_sub_cancel]; rfl
    rw [step_eq, hq']
    dsimp only
    rw [if_pos]
    show _ ∈ ((fset s.events s.next _ s.next).callbacks).getD []
    rw [fset_same]
    exact .head _
  obtain ⟨h1, h2⟩ := hset
  obtain ⟨k4, k5, k6⟩ := done_step (C := C) (s' := (s.setStop t).1.taken ⟨t, true, s.next⟩ []) k2 (by rw [h1]; exact .inr (.inl rfl))
  cases hr with
  | refused hs => rw [hs] at h2; cases h2
  | failed hs hr =>
    rw [hs] at h1
    cases hr with
    | raised hr => rw [h1] at hr; cases hr
    | more hr => rw [h1] at hr; cases hr
  | ended hs hr hc =>
    rw [hs] at h1 k1 k2 k3 k4 k5 k6
    cases hr with
    | more hr => rw [h1] at hr; cases hr
    | stopped hr =>
      rw [h1] at hr
      cases hr
      have k7 := (done_compile (C := C) k5).1
      rw [hc] at k7
      refine ⟨?_, ?_, only_trans k1 (only_trans k4 k7), fun hf => ?_⟩
      · have := congrArg (fun x => x.1.now) hc
        dsimp only at this
        rw [← this]
        unfold compileAtEnd
        split
        · split <;> rfl
        · rfl
      · apply empty_of_queue
        have := congrArg (fun x => x.1.queue) hc
        dsimp only at this
        rw [← this]
        unfold compileAtEnd
        split
        · split <;> rfl
        · rfl
      · have hci : ∀ w, compileIn C w = (w, .ok Option.none) := fun w => by unfold compileIn; rw [hf]
        unfold compileAtEnd at hc
        split at hc
        · rw [hci] at hc
          obtain ⟨h3, h4⟩ := Prod.mk.inj hc
          exact ⟨by rw [← h3, ← k3]; exact k6, h4.symm⟩
        · next hne => exact absurd rfl hne

/-! ## Examples -/

/-- After `run(0.5)` both rules of the example have fired, and nothing is left to happen. -/
theorem ex_settled : ∃ s, Unraised exCoupleC exCouple Option.none 0 s ∧ s.step exCoupleC = .empty ∧ firingTimes s.trace = [1 / 20, 1 / 10] ∧ (s.points 2).isSome ∧ ∃ p, p ≠ 2 ∧ (s.points p).isSome := by
  have hb : (runOf exCoupleC 200 (Sim.init exCouple Option.none 0) (1 / 2)).map (fun s => (s.queue.isEmpty, firingTimes s.trace, (s.points 2).isSome, (List.range s.next).any (fun p => p != 2 && (s.points p).isSome))) =
      some (true, [1 / 20, 1 / 10], true, true) := by decide +kernel
  cases h1 : runOf exCoupleC 200 (Sim.init exCouple Option.none 0) (1 / 2) with
  | none => rw [h1] at hb; cases hb
  | some s =>
    rw [h1] at hb
    obtain ⟨h2, h3⟩ := Prod.mk.inj (Option.some.inj hb)
    obtain ⟨h3, h4⟩ := Prod.mk.inj h3
    obtain ⟨h4, h5⟩ := Prod.mk.inj h4
    obtain ⟨p, -, h5⟩ := List.any_eq_true.1 h5
    rw [Bool.and_eq_true, bne_iff_ne] at h5
    exact ⟨s, unraised_runCall .init (runOf_call h1), empty_of_queue (List.isEmpty_iff.1 h2), h3, h4, p, h5⟩

/-- C84, an instance. -/
example : ∃ s p, Reachable exCoupleC exCouple Option.none 0 s ∧ s.step exCoupleC = .empty ∧ s.points p ≠ Option.none ∧ AwaitsCall s p := by
  obtain ⟨s, h1, h2, -, h3, -⟩ := ex_settled
  have hp : s.points 2 ≠ Option.none := fun h => by rw [h] at h3; cases h3
  exact ⟨s, 2, reachable_unraised h1, h2, hp, C84 (reachable_unraised h1) h2 hp⟩

/-- C84_rules and C84_requests, an instance: the process of the rules waits, and so does another one, without requests. -/
example : ∃ s n p, Unraised exCoupleC exCouple Option.none 0 s ∧ s.step exCoupleC = .empty ∧ s.points 2 = some .procIdle ∧ s.points p = some (.extraIdle n) ∧ requestsFor n s.startedList = [] := by
  obtain ⟨s, h1, h2, -, -, p, hp2, h3⟩ := ex_settled
  have hp : s.points p ≠ Option.none := fun h => by rw [h] at h3; cases h3
  rcases C84_requests (by decide) (fun _ => rfl) h1 h2 hp with rfl | ⟨n, h4, h5⟩
  · exact absurd rfl hp2
  · exact ⟨s, n, p, h1, h2, (C84_rules h1 h2).1, h4, h5⟩

/-- C84_forever and C84_run, an instance: another call of `run` reports nothing, and the clock shows its time. -/
example : ∃ s s', Unraised exCoupleC exCouple Option.none 0 s ∧ GoesOn exCoupleC s s' ∧ s.now < s'.now ∧ firingTimes s'.trace = [1 / 20, 1 / 10] ∧ s'.w.bufs = s.w.bufs := by
  obtain ⟨s, h1, h2, h3, -⟩ := ex_settled
  have hq := queue_of_empty h2
  have hg : GoesOn exCoupleC s ((s.setStop (s.now + 1)).1.taken ⟨s.now + 1, true, s.next⟩ []) := by
    refine (GoesOn.stop (s.now + 1) (.refl s)).step (.inr (.inl ?_))
    unfold Sim.setStop
    rw [if_neg (by linarith)]
    have hq' : ((s.alloc ⟨some (.ok .nothing), false, some [.stop]⟩).schedule s.next true (s.now + 1 - s.now)).queue = [⟨s.now + 1, true, s.next⟩] := by
      show insertEntry ⟨s.now + (s.now + 1 - s.now), true, s.next⟩ s.queue = _
      rw [hq, add_sub_cancel]; rfl
    rw [step_eq, hq']
    dsimp only
    rw [if_pos]
    show _ ∈ ((fset s.events s.next _ s.next).callbacks).getD []
    rw [fset_same]
    exact .head _
  have := C84_forever h2 hg
  exact ⟨s, _, h1, hg, by show s.now < s.now + 1; linarith, by rw [this.trace]; exact h3, this.bufs⟩

end Verif.Props
