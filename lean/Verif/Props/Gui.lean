import Verif.Spec.Gui
import Verif.Props.Stepping
import Verif.Lemmas.Gui
/-!
# C87: the trace of a simulation with a window

With `gui=True` the simulation is carried out by a thread of its own, which prints what it finds in `current_event`.
-/
namespace Verif.Props
open Verif Verif.Spec Classical

section destutter
variable {α : Type} {R : α → α → Prop} [DecidableRel R]

theorem destutter'_snoc (x : α) : ∀ (l : List α) (a : α), ∃ y, (l.destutter' R a).getLast? = some y ∧
    (l ++ [x]).destutter' R a = if R y x then l.destutter' R a ++ [x] else l.destutter' R a
  | [], a => by
    refine ⟨a, rfl, ?_⟩
    by_cases h : R a x <;> simp [List.destutter', h]
  | b :: l, a => by
    by_cases h : R a b
    · obtain ⟨y, h1, h2⟩ := destutter'_snoc x l b
      refine ⟨y, ?_, ?_⟩
      · simp only [List.destutter', h, if_true]
        rw [List.getLast?_cons, h1]; rfl
      · simp only [List.cons_append, List.destutter', h, if_true, h2]
        split <;> rfl
    · obtain ⟨y, h1, h2⟩ := destutter'_snoc x l a
      refine ⟨y, ?_, ?_⟩
      · simpa only [List.destutter', h, if_false] using h1
      · simp only [List.cons_append, List.destutter', h, if_false, h2]

theorem destutter_snoc (l : List α) (x : α) :
    ((∃ y, (l.destutter R).getLast? = some y ∧ ¬ R y x) → (l ++ [x]).destutter R = l.destutter R) ∧
    ((¬ ∃ y, (l.destutter R).getLast? = some y ∧ ¬ R y x) → (l ++ [x]).destutter R = l.destutter R ++ [x]) := by
  cases l with
  | nil => simp [List.destutter]
  | cons a l =>
    obtain ⟨y, h1, h2⟩ := destutter'_snoc (R := R) x l a
    simp only [List.cons_append, List.destutter_cons']
    rw [h1, h2]
    by_cases h : R y x <;> simp [h]

end destutter

variable {C : Cfg} {same : Ev → Ev → Prop} {rt : Bool} {w : Mach} {args : Option EnvArgs} {t : ℚ}

/-- The whole of C87: with a window the same events are printed as without. -/
def C87_full : Prop := ∀ (C : Cfg) (same : Ev → Ev → Prop) (rt : Bool) (w : Mach) (args : Option EnvArgs) (t : ℚ) (g : Worker), Equates same →
  Works C same rt (Sim.init w args t) g → g.printed = printedWithout g.sim.trace

/-- The thread and what has been reported so far. -/
structure Watches (same : Ev → Ev → Prop) (rt : Bool) (g : Worker) : Prop where
  printed : g.printed = printedOnce same g.sim.trace
  last : g.last = ((g.sim.trace.map (·.2)).destutter (fun a b => ¬ same a b)).getLast?
  seen : ∀ x, g.sim.trace.getLast? = some x → ∃ l, g.last = some l ∧ same l x.2
  none : g.last = Option.none → g.oldTime = 0
  time : ∀ l, g.last = some l → g.oldTime = l.time
  old : ∀ l, g.last = some l → l ∈ g.sim.trace.map (·.2)
  slept : rt = true → g.slept.sum = g.oldTime

theorem current_eq (s : Sim) : s.current = (s.trace.map (·.2)).getLast? := by
  simp [Sim.current, List.getLast?_map]

/-- If nothing new has been reported, nothing happens. -/
theorem look_seen {g : Worker} (h : ∀ x, g.sim.trace.getLast? = some x → ∃ l, g.last = some l ∧ same l x.2) : g.look same rt = (g, .ok ()) := by
  unfold Worker.look
  cases hc : g.sim.current with
  | none => rfl
  | some e =>
    obtain ⟨x, hx, rfl⟩ : ∃ x, g.sim.trace.getLast? = some x ∧ x.2 = e := by
      simpa [Sim.current] using hc
    dsimp only
    rw [if_pos (h x hx)]

theorem watches_more {g : Worker} {s' : Sim} (hsame : Equates same) (h : Watches same rt g) (ho : g.sim.trace = s'.trace ∨ ∃ e, s'.trace = g.sim.trace ++ [(s'.now, e)])
    (htime : ∀ e, s'.trace = g.sim.trace ++ [(s'.now, e)] → e.time = s'.now) (hpast : ∀ e ∈ g.sim.trace.map (·.2), e.time ≤ s'.now) (h0 : rt = true → 0 ≤ s'.now) :
    ∃ g', ({ g with sim := s' } : Worker).look same rt = (g', .ok ()) ∧ g'.sim = s' ∧ Watches same rt g' ∧ ∃ l, g'.slept = g.slept ++ l ∧ ∀ d ∈ l, 0 ≤ d := by
  rcases ho with ho | ⟨e, he⟩
  · refine ⟨{ g with sim := s' }, look_seen (by rw [← ho]; exact h.seen), rfl, ?_, [], by simp, by simp⟩
    exact ⟨by rw [← ho]; exact h.printed, by rw [← ho]; exact h.last, by rw [← ho]; exact h.seen, h.none, h.time, by rw [← ho]; exact h.old, h.slept⟩
  · have hcur : s'.current = some e := current_append _ _ _ he
    have hmap : s'.trace.map (·.2) = g.sim.trace.map (·.2) ++ [e] := by rw [he]; simp
    have hds := destutter_snoc (R := fun a b => ¬ same a b) (g.sim.trace.map (·.2)) e
    rw [← hmap, ← h.last] at hds
    have hgl : s'.trace.getLast? = some (s'.now, e) := by rw [he]; simp
    by_cases hl : ∃ l, g.last = some l ∧ same l e
    · refine ⟨{ g with sim := s' }, ?_, rfl, ?_, [], by simp, by simp⟩
      · unfold Worker.look
        dsimp only
        rw [hcur]
        dsimp only
        rw [if_pos hl]
      · obtain ⟨l, hl1, hl2⟩ := hl
        replace hds := hds.1 ⟨l, hl1, not_not_intro hl2⟩
        refine ⟨?_, ?_, ?_, h.none, h.time, fun l' hl' => by rw [hmap]; simp only [List.mem_append]; exact .inl (h.old l' hl'), h.slept⟩
        · show g.printed = _
          rw [printedOnce, hds, h.printed, printedOnce]
        · show g.last = _
          rw [hds, h.last]
        · intro x hx
          have : x = (s'.now, e) := by rw [hgl] at hx; exact (Option.some.inj hx).symm
          subst this
          exact ⟨l, hl1, hl2⟩
    · have hd : rt = true → 0 ≤ e.time - g.oldTime := by
        intro hr
        rw [htime e he]
        cases hlast : g.last with
        | none => rw [h.none hlast]; linarith [h0 hr]
        | some l => rw [h.time l hlast]; linarith [hpast l (h.old l hlast)]
      refine ⟨{ g with sim := s', last := some e, oldTime := e.time, slept := if rt then g.slept ++ [e.time - g.oldTime] else g.slept,
                       printed := if e.proc = "ENVIRONMENT" then g.printed else g.printed ++ [e] }, ?_, rfl, ?_,
        if rt then [e.time - g.oldTime] else [], ?_, ?_⟩
      · unfold Worker.look
        dsimp only
        rw [hcur]
        dsimp only
        rw [if_neg hl, if_neg (fun hh => by linarith [hd hh.1, hh.2])]
      · have hds' : (s'.trace.map (·.2)).destutter (fun a b => ¬ same a b) = (g.sim.trace.map (·.2)).destutter (fun a b => ¬ same a b) ++ [e] := by
          apply hds.2
          rintro ⟨y, hy, hn⟩
          exact hl ⟨y, hy, not_not.mp hn⟩
        refine ⟨?_, ?_, ?_, fun hh => absurd hh (by simp), fun l hl => ?_, fun l hl => ?_, fun hr => ?_⟩
        · show (if e.proc = "ENVIRONMENT" then g.printed else g.printed ++ [e]) = _
          rw [printedOnce, hds', List.filter_append, h.printed, printedOnce]
          by_cases hp : e.proc = "ENVIRONMENT" <;> simp [hp]
        · show some e = _
          rw [hds']; simp
        · intro x hx
          have : x = (s'.now, e) := by rw [hgl] at hx; exact (Option.some.inj hx).symm
          subst this
          exact ⟨e, rfl, hsame.refl e⟩
        · cases hl; rfl
        · cases hl; rw [hmap]; simp
        · show (if rt = true then g.slept ++ [e.time - g.oldTime] else g.slept).sum = e.time
          rw [if_pos hr, List.sum_append, h.slept hr]; simp
      · show (if rt = true then g.slept ++ [e.time - g.oldTime] else g.slept) = _
        split <;> simp
      · intro d hdm
        split at hdm
        · rename_i hr
          rw [List.mem_singleton.1 hdm]; exact hd hr
        · cases hdm

theorem watches_start (s : Sim) (hs : s.trace = []) : Watches same rt (Worker.start s) := by
  refine ⟨?_, ?_, ?_, fun _ => rfl, fun l hl => ?_, fun l hl => ?_, fun _ => rfl⟩
  · simp [Worker.start, printedOnce, hs]
  · simp [Worker.start, hs]
  · intro x hx; simp [Worker.start, hs] at hx
  · cases hl
  · cases hl

/-- A round after a step that succeeds. -/
theorem watches_round (hsame : Equates same) {g : Worker} {s' : Sim} (hr : Reachable C w args t g.sim) (h : Watches same rt g) (h0 : rt = true → 0 ≤ g.sim.now)
    (hs : g.sim.step C = .ok s') : ∃ g', g.round C same rt = .more g' ∧ g'.sim = s' ∧ Watches same rt g' ∧ ∃ l, g'.slept = g.slept ++ l ∧ ∀ d ∈ l, 0 ≤ d := by
  have hclock := C42_clock hr
  have hnow := hclock.2 s' hs
  obtain ⟨g', h1, h2, h3, h4⟩ := watches_more (s' := s') hsame h
    (((reports_step hr).1 _ hs).imp Eq.symm (fun ⟨e, _, he⟩ => ⟨e, he⟩))
    (fun e he => (report_time (hr.step hs) (by rw [he]; simp)).symm)
    (fun e he => by
      obtain ⟨x, hx, rfl⟩ := List.mem_map.1 he
      exact (hclock.1 x hx).trans hnow)
    (fun hr => (h0 hr).trans hnow)
  refine ⟨g', ?_, h2, h3, h4⟩
  unfold Worker.round
  rw [hs]
  dsimp only
  rw [h1]

theorem works_watches (hsame : Equates same) (h0 : rt = true → 0 ≤ t) {g : Worker} (h : Works C same rt (Sim.init w args t) g) :
    Reachable C w args t g.sim ∧ round4 t ≤ g.sim.now ∧ Watches same rt g ∧ ∀ d ∈ g.slept, 0 ≤ d := by
  induction h with
  | start => exact ⟨.init, le_of_eq (init_clock w args t).symm, watches_start _ (apart_init w args t).2, by simp [Worker.start]⟩
  | @round g g' _ hr ih =>
    obtain ⟨h1, h2, h3, h4⟩ := ih
    cases hs : g.sim.step C with
    | ok s' =>
      obtain ⟨g2, e1, e2, e3, l, e4, e5⟩ := watches_round hsame h1 h3 (fun hr => (round4_nonneg (h0 hr)).trans h2) hs
      rw [e1] at hr
      cases hr
      refine ⟨by rw [e2]; exact h1.step hs, by rw [e2]; exact h2.trans ((C42_clock h1).2 _ hs), e3, fun d hd => ?_⟩
      rw [e4] at hd
      exact (List.mem_append.1 hd).elim (h4 d) (e5 d)
    | empty =>
      unfold Worker.round at hr
      rw [hs] at hr
      dsimp only at hr
      split at hr <;> cases hr
    | raised s' x => unfold Worker.round at hr; rw [hs] at hr; cases hr
    | stopped s' => unfold Worker.round at hr; rw [hs] at hr; cases hr

/-- The thread gets as far as steps succeed. -/
theorem works_steps (hsame : Equates same) (h0 : rt = true → 0 ≤ t) {s' : Sim}
    (hw : Relation.ReflTransGen (fun a b : Sim => a.step C = .ok b) (Sim.init w args t) s') : ∃ g, Works C same rt (Sim.init w args t) g ∧ g.sim = s' := by
  induction hw with
  | refl => exact ⟨_, .start, rfl⟩
  | tail _ hs ih =>
    obtain ⟨g, hg, rfl⟩ := ih
    obtain ⟨h1, h2, h3, _⟩ := works_watches hsame h0 hg
    obtain ⟨g', e1, e2, _⟩ := watches_round hsame h1 h3 (fun hr => (round4_nonneg (h0 hr)).trans h2) hs
    exact ⟨g', hg.round e1, e2⟩

/-- The part of C87 that holds: the thread takes the steps that `run` takes, and prints the events that are printed without a window, in
the same order, except that of several events in a row that are the same only the first one is printed. -/
theorem C87_partial (hsame : Equates same) (h0 : rt = true → 0 ≤ t) {g : Worker} (h : Works C same rt (Sim.init w args t) g) :
    g.printed = printedOnce same g.sim.trace ∧ Reachable C w args t g.sim := by
  obtain ⟨h1, _, h2, _⟩ := works_watches hsame h0 h
  exact ⟨h2.printed, h1⟩

/-- If no event is reported twice in a row, exactly the same is printed. -/
theorem C87_same_partial (hsame : Equates same) (h0 : rt = true → 0 ≤ t) {g : Worker} (h : Works C same rt (Sim.init w args t) g)
    (hn : NoRepeats same g.sim.trace) : g.printed = printedWithout g.sim.trace := by
  rw [(C87_partial hsame h0 h).1, printedOnce, printedWithout, List.destutter_of_isChain]
  rw [List.isChain_map]
  exact hn

/-- Every state that steps lead to is reached by the thread, in any case. -/
theorem C87_follows (hsame : Equates same) (h0 : rt = true → 0 ≤ t) {n : ℕ} {s' : Sim} (hs : stepsOf C n (Sim.init w args t) = .ok s') :
    ∃ g, Works C same rt (Sim.init w args t) g ∧ g.sim = s' :=
  works_steps hsame h0 (stepsOf_walk hs)

/-- In real time, the thread never sleeps for a negative time, and all in all it sleeps until the time of the last event that it noticed.
If it fails, it is because the simulation does; it ends by itself only when nothing is left to happen, and then nothing more is printed. -/
theorem C87_sleep (hsame : Equates same) (h0 : 0 ≤ t) {g : Worker} (h : Works C same true (Sim.init w args t) g) :
    (∀ d ∈ g.slept, 0 ≤ d) ∧ g.slept.sum = (g.last.map (·.time)).getD 0 ∧
    (∀ g' x, g.round C same true = .failed g' x → ∃ s', g.sim.step C = .raised s' x ∧ g'.printed = g.printed) ∧
    (∀ g', g.round C same true = .over g' → g.sim.queue = [] ∧ g' = g) := by
  obtain ⟨h1, h2, h3, h4⟩ := works_watches hsame (fun _ => h0) h
  refine ⟨h4, ?_, fun g' x hr => ?_, fun g' hr => ?_⟩
  · rw [h3.slept rfl]
    cases hl : g.last with
    | none => exact h3.none hl
    | some l => exact h3.time l hl
  · cases hs : g.sim.step C with
    | ok s' =>
      obtain ⟨g2, e1, _⟩ := watches_round hsame h1 h3 (fun _ => (round4_nonneg h0).trans h2) hs
      rw [e1] at hr; cases hr
    | empty =>
      unfold Worker.round at hr
      rw [hs] at hr
      dsimp only at hr
      rw [look_seen h3.seen] at hr
      cases hr
    | raised s' y =>
      unfold Worker.round at hr; rw [hs] at hr
      cases hr
      exact ⟨s', rfl, rfl⟩
    | stopped s' => unfold Worker.round at hr; rw [hs] at hr; cases hr
  · cases hs : g.sim.step C with
    | ok s' =>
      obtain ⟨g2, e1, _⟩ := watches_round hsame h1 h3 (fun _ => (round4_nonneg h0).trans h2) hs
      rw [e1] at hr; cases hr
    | empty =>
      unfold Worker.round at hr
      rw [hs] at hr
      dsimp only at hr
      rw [look_seen h3.seen] at hr
      cases hr
      refine ⟨?_, rfl⟩
      rcases step_cases hs with ⟨_, h⟩ | ⟨en, q, _, ⟨_, h⟩ | ⟨_, h | ⟨x, h⟩⟩⟩
      · exact h
      all_goals cases h
    | raised s' y => unfold Worker.round at hr; rw [hs] at hr; cases hr
    | stopped s' => unfold Worker.round at hr; rw [hs] at hr; cases hr

/-- None of the events is one of the environment. -/
theorem exStepTwice_own : (match stepsOf exC 22 (Sim.init exStepTwice Option.none 0) with
    | .ok b => decide ((b.trace.filter (fun x => x.2.proc ≠ "ENVIRONMENT")).length = 5) && decide (b.trace.length = 5) &&
        (match b.trace.reverse with | y :: x :: _ => alike y.2 x.2 | _ => false)
    | _ => false) = true := by decide +kernel

/-- C87 is false: the second of two modifications at the same time is not printed with a window. -/
theorem C87_refuted : ¬ C87_full := by
  intro h
  have hb := exStepTwice_own
  cases hs : stepsOf exC 22 (Sim.init exStepTwice Option.none 0) with
  | ok b =>
    rw [hs] at hb
    simp only [Bool.and_eq_true, decide_eq_true_eq] at hb
    obtain ⟨⟨h1, h2⟩, h3⟩ := hb
    obtain ⟨g, hg, rfl⟩ := C87_follows (same := Eq) (rt := false) equates_eq (by simp) hs
    have hf := h exC Eq false exStepTwice Option.none 0 g equates_eq hg
    have hp := (C87_partial equates_eq (by simp) hg).1
    have hlen := congrArg List.length (hp.symm.trans hf)
    cases hrev : g.sim.trace.reverse with
    | nil => rw [hrev] at h3; cases h3
    | cons y r =>
      cases r with
      | nil => rw [hrev] at h3; cases h3
      | cons x r =>
        rw [hrev] at h3
        have hxy := alike_eq h3
        have htr : g.sim.trace = r.reverse ++ [x] ++ [y] := by
          have := congrArg List.reverse hrev
          simpa using this
        have hds : (g.sim.trace.map (·.2)).destutter (fun a b => ¬ a = b) = ((r.reverse ++ [x]).map (·.2)).destutter (fun a b => ¬ a = b) := by
          rw [htr, List.map_append (l₂ := [y])]
          apply (destutter_snoc (R := fun a b : Ev => ¬ a = b) ((r.reverse ++ [x]).map (·.2)) y.2).1
          rw [List.map_append]
          rcases Classical.em (∃ z, ((r.reverse.map (·.2)).destutter (fun a b : Ev => ¬ a = b)).getLast? = some z ∧ ¬ ¬ z = x.2) with hz | hz
          · rw [List.map_singleton, (destutter_snoc (R := fun a b : Ev => ¬ a = b) (r.reverse.map (·.2)) x.2).1 hz]
            obtain ⟨z, hz1, hz2⟩ := hz
            exact ⟨z, hz1, by rw [hxy]; exact hz2⟩
          · rw [List.map_singleton, (destutter_snoc (R := fun a b : Ev => ¬ a = b) (r.reverse.map (·.2)) x.2).2 hz]
            exact ⟨x.2, by simp, by rw [hxy]; simp⟩
        have hle : (printedOnce Eq g.sim.trace).length ≤ 4 := by
          rw [printedOnce]
          refine (List.length_filter_le _ _).trans ?_
          rw [hds]
          refine (List.destutter_sublist _ _).length_le.trans ?_
          have := congrArg List.length htr
          simp at this ⊢
          omega
        have hw : (printedWithout g.sim.trace).length = 5 := by
          rw [printedWithout, List.filter_map, List.length_map]
          exact h1
        omega
  | stopped b => rw [hs] at hb; cases hb
  | raised b x => rw [hs] at hb; cases hb
  | empty => rw [hs] at hb; cases hb

/-- An example: a thread that has noticed 24 events, or rather those of them that are not repeated. -/
example : ∃ g, Works exC Eq true (Sim.init exPresser exEnvArgs 0) g ∧ g.sim.trace.length = 24 ∧ (∀ d ∈ g.slept, 0 ≤ d) ∧
    g.printed = printedOnce Eq g.sim.trace := by
  obtain ⟨s, hs, ht⟩ := kinds_ok exSim_kinds (by decide +kernel) (by simp) (by decide +kernel)
  obtain ⟨g, hg, rfl⟩ := C87_follows (same := Eq) (rt := true) equates_eq (fun _ => le_rfl) hs
  exact ⟨g, hg, by simpa using congrArg List.length ht, (C87_sleep equates_eq le_rfl hg).1, (C87_partial equates_eq (fun _ => le_rfl) hg).1⟩

end Verif.Props
