import Verif.Lemmas.Stepping
import Verif.Lemmas.ExSim
import Verif.Props.Preempt
/-!
# C57: stepping through a simulation

`step()` goes on to the next event that is reported; `steps(n)` does this n times; the clock then shows the time of that event.
-/
namespace Verif.Props
open Verif.Spec

variable {C : Cfg} {same : Ev → Ev → Prop} {w : Mach} {args : Option EnvArgs} {t : ℚ} {s s' : Sim} {last last' : Option Ev}

/-- Whatever was called before, a call of `step` that returns ends right after one more event has been reported, this event is the
current one, and the clock shows its time. -/
def C57_full : Prop :=
  ∀ (C : Cfg) (same : Ev → Ev → Prop) (w : Mach) (args : Option EnvArgs) (t : ℚ) (s s' : Sim) (last last' : Option Ev), Equates same →
    Session C same w args t s last → StepCall C same s last s' last' .returned →
    ∃ x, s'.trace = s.trace ++ [x] ∧ s'.current = some x.2 ∧ s'.showTime = x.2.time

/-- If nothing has been reported since the last call of `step` returned (this is so if only `step` and `steps` are called), a call that
returns ends right after an event that is not the same as the last one; before it, only repetitions of the last event have been
reported. -/
theorem C57_partial (hsame : Equates same) (h : Session C same w args t s last) (hc : last = s.current) (hr : StepCall C same s last s' last' .returned) :
    ∃ l x, s'.trace = s.trace ++ l ++ [x] ∧ (∀ y ∈ l, ∃ e, last = some e ∧ same y.2 e) ∧ (∀ e, last = some e → ¬ same x.2 e) ∧
      s'.current = some x.2 ∧ last' = s'.current ∧ s'.showTime = x.2.time := by
  obtain ⟨l, x, h1, h2, h3, h4, h5⟩ := told_step (reachable_session h) (fun e he => ⟨e, hc.trans he, hsame.refl e⟩) hr
  have := current_append s' (s.trace ++ l) x h1
  exact ⟨l, x, h1, h2, h3, this, h4.trans this.symm, h5⟩

/-- If no event is reported twice in a row, there is exactly one. -/
theorem C57_one_partial (hsame : Equates same) (h : Session C same w args t s last) (hc : last = s.current) (hr : StepCall C same s last s' last' .returned)
    (hn : NoRepeats same s'.trace) : ∃ x, s'.trace = s.trace ++ [x] ∧ s'.current = some x.2 ∧ last' = s'.current ∧ s'.showTime = x.2.time := by
  obtain ⟨l, x, h1, h2, _, h4, h5, h6⟩ := C57_partial hsame h hc hr
  cases l with
  | nil => exact ⟨x, by simpa using h1, h4, h5, h6⟩
  | cons y l =>
    exfalso
    obtain ⟨e, he, hs⟩ := h2 y (.head _)
    rw [hc] at he
    obtain ⟨z, hz, rfl⟩ : ∃ z, s.trace.getLast? = some z ∧ z.2 = e := by
      unfold Sim.current at he
      cases hl : s.trace.getLast? with
      | none => rw [hl] at he; cases he
      | some z => rw [hl] at he; cases he; exact ⟨z, rfl, rfl⟩
    obtain ⟨ini, hini⟩ := List.getLast?_eq_some_iff.1 hz
    rw [h1, hini] at hn
    have : (ini ++ ([z, y] ++ (l ++ [x]))).IsChain (fun a b => ¬ same a.2 b.2) := by
      have := hn
      unfold NoRepeats at this
      simpa using this
    have h3 := (List.isChain_append.1 this).2.1
    have h4 := (List.isChain_append.1 h3).1
    exact (List.isChain_pair.1 h4) (hsame.symm _ _ hs)

/-- A call of `step` that returns leaves the current event as the last one, whatever was called before. -/
theorem C57_last (hr : StepCall C same s last s' last' .returned) : last' = s'.current ∧ ∃ e, last' = some e ∧ ∀ e', last = some e' → ¬ same e e' := by
  obtain ⟨h1, e, he, _, hn⟩ := returned_current hr
  exact ⟨h1, e, h1.trans he, hn⟩

theorem loop_counts (hsame : Equates same) {n : ℕ} (hr : StepsLoop C same n s last s' last' .returned) :
    Session C same w args t s last → last = s.current → NoRepeats same s'.trace →
    (∃ l, s'.trace = s.trace ++ l ∧ l.length = n) ∧ last' = s'.current := by
  generalize he : StepEnd.returned = r at hr
  induction hr with
  | zero => intro _ hc _; exact ⟨⟨[], by simp, rfl⟩, hc⟩
  | @more n s s1 s' last last1 last' r h1 h2 ih =>
    intro h hc hn
    have hs1 := h.step h1
    have hc1 := (C57_last h1).1
    obtain ⟨⟨l, hl, hlen⟩, hlast⟩ := ih he hs1 hc1 hn
    obtain ⟨x, hx, _⟩ := C57_one_partial hsame h hc h1 (by unfold NoRepeats at *; rw [hl] at hn; exact (List.isChain_append.1 hn).1)
    exact ⟨⟨x :: l, by rw [hl, hx]; simp, by simp [hlen]⟩, hlast⟩
  | left _ hne => exact absurd he.symm hne

/-- The same for `steps(count)`: if no event is reported twice in a row, as many events are reported as the count says. -/
theorem C57_steps_partial {count : ℚ} (hsame : Equates same) (h : Session C same w args t s last) (hc : last = s.current)
    (hr : StepsCall C same count s last s' last' .returned) (hn : NoRepeats same s'.trace) :
    (∃ l, s'.trace = s.trace ++ l ∧ (l.length : ℤ) = count.num.tdiv count.den) ∧ last' = s'.current := by
  cases hr with
  | steps hpos hr =>
    obtain ⟨⟨l, hl, hlen⟩, hlast⟩ := loop_counts hsame hr h hc hn
    exact ⟨⟨l, hl, by rw [hlen]; omega⟩, hlast⟩

/-- A program that only calls `step` on a new simulation: after `n` calls that return, `n` events have been reported, unless some event
is reported twice in a row. -/
theorem C57_start_partial {n : ℕ} (hsame : Equates same) (hr : StepsLoop C same n (Sim.init w args t) Option.none s' last' .returned) (hn : NoRepeats same s'.trace) :
    s'.trace.length = n ∧ last' = s'.current := by
  have h0 := (apart_init w args t).2
  obtain ⟨⟨l, hl, hlen⟩, hlast⟩ := loop_counts hsame hr (.init (C := C) (w := w) (args := args) (t := t)) (by simp [Sim.current, h0]) hn
  rw [h0] at hl
  exact ⟨by rw [hl]; simpa using hlen, hlast⟩

/-- If the call of `step` ends because nothing is left to happen, nothing but repetitions of the last event has been reported. -/
theorem C57_exhausted (hsame : Equates same) (h : Session C same w args t s last) (hc : last = s.current) (hr : StepCall C same s last s' last' .exhausted) :
    ∃ l, s'.trace = s.trace ++ l ∧ (∀ y ∈ l, ∃ e, last = some e ∧ same y.2 e) ∧ s'.queue = [] :=
  told_step (reachable_session h) (fun e he => ⟨e, hc.trans he, hsame.refl e⟩) hr

theorem walk_idle {s1 : Sim} (hsame : Equates same) (hc : last = s.current) (h : Reachable C w args t s)
    (hw : Relation.ReflTransGen (fun a b => a.step C = .ok b) s s1) :
    ∃ l, s1.trace = s.trace ++ l ∧ Reachable C w args t s1 ∧ ((∀ y ∈ l, ∃ e, last = some e ∧ same y.2 e) → Idle C same last s s1) := by
  induction hw with
  | refl => exact ⟨[], by simp, h, fun _ => .refl⟩
  | @tail b c _ hs ih =>
    obtain ⟨l, hl, hb, hi⟩ := ih
    obtain ⟨l', hl', hlen⟩ : ∃ l', c.trace = s.trace ++ (l ++ l') ∧ (l' = [] ∨ ∃ x, l' = [x]) := by
      rcases (reports_step hb).1 _ hs with h1 | ⟨e, _, h1⟩
      · exact ⟨[], by rw [h1, hl]; simp, .inl rfl⟩
      · exact ⟨[(c.now, e)], by rw [h1, hl]; simp, .inr ⟨_, rfl⟩⟩
    refine ⟨l ++ l', hl', hb.step hs, fun hall => ?_⟩
    refine .snoc (hi fun y hy => hall y (List.mem_append.2 (.inl hy))) hs ?_
    rintro ⟨e, he, _, hne⟩
    rcases List.eq_nil_or_concat (l ++ l') with h0 | ⟨ini, x, h0⟩
    · rw [h0] at hl'
      have : c.current = s.current := current_trace (by simpa using hl')
      rw [this] at he
      exact hne e (hc.trans he) (hsame.refl e)
    · rw [List.concat_eq_append] at h0
      have hcx := current_append c (s.trace ++ ini) x (by rw [hl', h0]; simp)
      rw [hcx] at he
      cases he
      obtain ⟨e, he, hs⟩ := hall x (by rw [h0]; simp)
      exact hne e he hs

/-- A call of `step` does return if an event other than the last one is going to be reported, and it returns right after the first
such event. -/
theorem C57_returns {s1 : Sim} {l : List (ℚ × Ev)} {x : ℚ × Ev} (hsame : Equates same) (h : Session C same w args t s last) (hc : last = s.current)
    (hw : Relation.ReflTransGen (fun a b => a.step C = .ok b) s s1) (hl : s1.trace = s.trace ++ l) (he : ∀ y ∈ l, ∃ e, last = some e ∧ same y.2 e)
    (hs : s1.step C = .ok s') (hx : s'.trace = s1.trace ++ [x]) (hne : ∀ e, last = some e → ¬ same x.2 e) :
    StepCall C same s last s' (some x.2) .returned := by
  obtain ⟨l', hl', hr, hi⟩ := walk_idle hsame hc (reachable_session h) hw
  have : l' = l := by rw [hl] at hl'; exact (List.append_cancel_left hl').symm
  subst this
  have hcx := current_append s' s1.trace x hx
  have hn : News same s' last := ⟨x.2, hcx, reports_known (hr.step hs) x (by rw [hx]; simp), hne⟩
  have := StepCall.found hs hn
  rw [hcx] at this
  exact idle_returned (hi he) this

/-- If nothing is left to happen after some steps in which nothing but repetitions of the last event is reported, the call of `step`
raises EmptySchedule, unless the compilation of rules fails before that. -/
theorem C57_ends {s1 : Sim} {l : List (ℚ × Ev)} (hsame : Equates same) (h : Session C same w args t s last) (hc : last = s.current)
    (hw : Relation.ReflTransGen (fun a b => a.step C = .ok b) s s1) (hl : s1.trace = s.trace ++ l) (he : ∀ y ∈ l, ∃ e, last = some e ∧ same y.2 e)
    (hq : s1.queue = []) (hok : ∃ a, (compileIn C s1.w).2 = .ok a) : ∃ s', StepCall C same s last s' last .exhausted := by
  obtain ⟨l', hl', _, hi⟩ := walk_idle hsame hc (reachable_session h) hw
  have : l' = l := by rw [hl] at hl'; exact (List.append_cancel_left hl').symm
  subst this
  have hempty : ∀ s : Sim, s.queue = [] → s.step C = .empty := fun s hq => by rw [step_eq, hq]
  cases hi he with
  | refl => exact ⟨s, .empty (hempty s hq)⟩
  | @snoc b _ h1 h2 h3 =>
    have hcomp : compileAtEnd C s1 = ({ s1 with w := (compileIn C s1.w).1 }, .ok ()) := by
      unfold compileAtEnd
      rw [if_pos (by rw [hq]; rfl)]
      rcases hx : compileIn C s1.w with ⟨w', r⟩
      rw [hx] at hok
      obtain ⟨a, hok⟩ := hok
      cases hok
      rfl
    have h4 : StepCall C same b last { s1 with w := (compileIn C s1.w).1 } last .exhausted := .again h2 h3 hcomp (.empty (hempty _ hq))
    have key : ∀ {a : Sim}, Idle C same last s a → ∀ {s' : Sim}, StepCall C same a last s' last .exhausted → a.queue ≠ [] → ∃ s', StepCall C same s last s' last .exhausted := by
      intro a ha
      induction ha with
      | refl => intro s' h _; exact ⟨s', h⟩
      | snoc _ hs hn ih => intro s' h hq; exact ih (.again hs hn (compile_none hq) h) (step_queue hs)
    exact key h1 h4 (step_queue h2)

/-! ## Witnesses -/

/-- Equality of events. -/
theorem equates_eq : Equates Eq := ⟨fun _ => rfl, fun _ _ h => h.symm, fun _ _ _ h h' => h.trans h', fun _ _ h => by rw [h], fun _ _ h => by rw [h]⟩

/-- A goal with a delay of 200 ms that is asked for once. -/
def exStepOnce : Mach :=
  { exMach exManualReg [("g", { exBuf .goal with delay := 1 / 5 })] with rules := [("first", exAskRule "free" "a")], ordered := ["first"] }

/-- The simulation has run for 100 ms; the next thing to happen is that the delay of the goal is over, which is not reported. -/
theorem exOnce_silent : (match runOf exC 100 (Sim.init exStepOnce Option.none 0) (1 / 10) with
    | some s => match s.step exC with
      | .ok s' => decide (0 < s.trace.length) && decide (s'.trace.length = s.trace.length)
      | _ => false
    | Option.none => false) = true := by decide +kernel

/-- After `run`, a call of `step` returns although nothing has been reported: `__last_event` is only kept by `step`. -/
theorem C57_after_run : ∃ s s' last', Session exC Eq exStepOnce Option.none 0 s Option.none ∧ StepCall exC Eq s Option.none s' last' .returned ∧ s'.trace = s.trace := by
  have hb := exOnce_silent
  cases hr : runOf exC 100 (Sim.init exStepOnce Option.none 0) (1 / 10) with
  | none => rw [hr] at hb; cases hb
  | some s =>
    rw [hr] at hb
    dsimp only at hb
    have hses : Session exC Eq exStepOnce Option.none 0 s Option.none := .run .init (runOf_call hr)
    cases hs : s.step exC with
    | ok s' =>
      rw [hs] at hb
      simp only [Bool.and_eq_true, decide_eq_true_eq] at hb
      have ht : s'.trace = s.trace := by
        rcases (reports_step (reachable_session hses)).1 _ hs with h1 | ⟨e, _, h1⟩
        · exact h1
        · rw [h1] at hb; simp at hb
      have hn : News Eq s' Option.none := by
        rcases List.eq_nil_or_concat s'.trace with h0 | ⟨ini, x, h0⟩
        · rw [← hb.2, h0] at hb; simp at hb
        · rw [List.concat_eq_append] at h0
          exact ⟨x.2, current_append _ _ _ h0, reports_known ((reachable_session hses).step hs) x (by rw [h0]; simp), by simp⟩
      exact ⟨s, s', _, hses, .found hs hn, ht⟩
    | stopped s' => rw [hs] at hb; cases hb
    | raised s' x => rw [hs] at hb; cases hb
    | empty => rw [hs] at hb; cases hb

theorem C57_refuted : ¬ C57_full := by
  intro h
  obtain ⟨s, s', last', h1, h2, h3⟩ := C57_after_run
  obtain ⟨x, hx, _⟩ := h _ _ _ _ _ _ _ _ _ equates_eq h1 h2
  rw [h3] at hx
  have := congrArg List.length hx
  simp at this

theorem stepsOf_walk {n : ℕ} {s s' : Sim} (he : stepsOf C n s = .ok s') : Relation.ReflTransGen (fun a b : Sim => a.step C = .ok b) s s' := by
  induction n generalizing s with
  | zero => cases he; exact .refl
  | succ n ih =>
    rw [stepsOf_succ] at he
    cases hs : s.step C with
    | ok s1 => rw [hs] at he; exact .head hs (ih he)
    | stopped s1 => rw [hs] at he; cases he
    | raised s1 x => rw [hs] at he; cases he
    | empty => rw [hs] at he; cases he

theorem idle_walk {s1 : Sim} (h : Idle C same last s s1) : Relation.ReflTransGen (fun a b : Sim => a.step C = .ok b) s s1 := by
  induction h with
  | refl => exact .refl
  | snoc _ hs _ ih => exact ih.tail hs

theorem loop_snoc {n : ℕ} {s1 : Sim} {last1 : Option Ev} (h : StepsLoop C same n s last s1 last1 .returned) (hr : StepCall C same s1 last1 s' last' .returned) :
    StepsLoop C same (n + 1) s last s' last' .returned := by
  generalize he : StepEnd.returned = r at h
  induction h with
  | zero => exact .more hr .zero
  | more h1 _ ih => exact .more h1 (ih hr he)
  | left _ hne => exact absurd he.symm hne

theorem session_loop {n : ℕ} {r : StepEnd} (h : Session C same w args t s last) (hr : StepsLoop C same n s last s' last' r) : Session C same w args t s' last' := by
  induction hr with
  | zero => exact h
  | more h1 _ ih => exact ih (h.step h1)
  | left h1 => exact h.step h1

/-- Calling `step` again and again one gets as far as one likes. -/
theorem catch_up (hw : Relation.ReflTransGen (fun a b : Sim => a.step C = .ok b) (Sim.init w args t) s') :
    ∃ n s0 last, StepsLoop C same n (Sim.init w args t) Option.none s0 last .returned ∧ last = s0.current ∧ Idle C same last s0 s' := by
  classical
  induction hw with
  | refl => exact ⟨0, _, _, .zero, by simp [Sim.current, (apart_init w args t).2], .refl⟩
  | @tail b c _ hs ih =>
    obtain ⟨n, s0, last, h1, h2, h3⟩ := ih
    by_cases hn : News same c last
    · exact ⟨n + 1, c, c.current, loop_snoc h1 (idle_returned h3 (.found hs hn)), rfl, .refl⟩
    · exact ⟨n, s0, last, h1, h2, .snoc h3 hs hn⟩

theorem idle_echo {s1 : Sim} (h : Reachable C w args t s) (hi : Idle C same last s s1) :
    ∃ l, s1.trace = s.trace ++ l ∧ (∀ y ∈ l, ∃ e, last = some e ∧ same y.2 e) ∧ Reachable C w args t s1 := by
  induction hi with
  | refl => exact ⟨[], by simp, by simp, h⟩
  | @snoc b c _ hs hn ih =>
    obtain ⟨l, hl, he, hb⟩ := ih
    rcases (reports_step hb).1 _ hs with h1 | ⟨e', hu, h1⟩
    · exact ⟨l, by rw [h1, hl], he, hb.step hs⟩
    · refine ⟨l ++ [(c.now, e')], by rw [h1, hl]; simp, fun y hy => (List.mem_append.1 hy).elim (he y) fun hy => ?_, hb.step hs⟩
      rw [List.mem_singleton.1 hy]
      by_contra hno
      exact hn ⟨e', current_append _ _ _ h1, hu, fun l hl hs => hno ⟨l, hl, hs⟩⟩

/-- A model that modifies its goal twice: `?g> state free ==> =g> … *g> …`. -/
def exStepTwice : Mach :=
  { exMach exManualReg [("g", { exBuf .goal with data := [exPress "a"] })] with
    rules := [("r", ⟨⟨.ok [(⟨'?', "g"⟩, .dict [("state", "free")])], .ok [(⟨'=', "g"⟩, .chunk (exPress "b")), (⟨'*', "g"⟩, .chunk (exPress "c"))]⟩, 0, Option.none⟩)],
    ordered := ["r"] }

/-- Both report the modification of a buffer, the same one at the same time. -/
def alike (e e' : Verif.Ev) : Bool :=
  decide (e.time.num = e'.time.num) && decide (e.time.den = e'.time.den) && decide (e.proc = e'.proc) && (match e.act, e'.act with | .modified, .modified => true | _, _ => false)

theorem alike_eq {e e' : Verif.Ev} (h : alike e e' = true) : e = e' := by
  obtain ⟨t, p, a⟩ := e
  obtain ⟨t', p', a'⟩ := e'
  simp only [alike, Bool.and_eq_true, decide_eq_true_eq] at h
  obtain ⟨⟨⟨h1, h2⟩, h3⟩, h4⟩ := h
  cases Rat.ext h1 h2
  cases h3
  split at h4
  · rfl
  · cases h4

/-- The modification is reported twice in a row. -/
theorem exStepTwice_reports : (match stepsOf exC 8 (Sim.init exStepTwice Option.none 0) with
    | .ok a => match stepsOf exC 14 a with
      | .ok b => match b.step exC with
        | .ok c => decide (a.trace.map (·.2.act.kind) = [.conflict, .selected, .fired, .other]) && decide (b.trace.length = 5) && decide (c.trace.length = 6) &&
            decide (c.trace.getLast?.map (·.2.act.kind) = some .conflict) &&
            (match a.trace.getLast?, b.trace.getLast? with | some x, some y => alike y.2 x.2 | _, _ => false)
        | _ => false
      | _ => false
    | _ => false) = true := by decide +kernel

/-- A program that only calls `step`, and one of the calls passes over an event: it is the same as the one before, and so not noticed. -/
theorem C57_repeated : ∃ n s last s' last', StepsLoop exC Eq n (Sim.init exStepTwice Option.none 0) Option.none s last .returned ∧
    StepCall exC Eq s last s' last' .returned ∧ s'.trace.length = s.trace.length + 2 := by
  have hb := exStepTwice_reports
  cases h8 : stepsOf exC 8 (Sim.init exStepTwice Option.none 0) with
  | ok a =>
    rw [h8] at hb
    dsimp only at hb
    cases h14 : stepsOf exC 14 a with
    | ok b =>
      rw [h14] at hb
      dsimp only at hb
      cases hs : b.step exC with
      | ok c =>
        rw [hs] at hb
        simp only [Bool.and_eq_true, decide_eq_true_eq] at hb
        obtain ⟨⟨⟨⟨hka, hlb⟩, hlc⟩, hkc⟩, hab⟩ := hb
        have hra : Reachable exC exStepTwice Option.none 0 a := stepsOf_ok .init h8
        have hrb : Reachable exC exStepTwice Option.none 0 b := stepsOf_ok hra h14
        obtain ⟨x, y, hx, hy, hxy⟩ : ∃ x y, a.trace.getLast? = some x ∧ b.trace.getLast? = some y ∧ y.2 = x.2 := by
          split at hab
          · rename_i x y hx hy; exact ⟨x, y, hx, hy, alike_eq hab⟩
          · cases hab
        have hla : a.trace.length = 4 := by have := congrArg List.length hka; simpa using this
        obtain ⟨n, s0, last, g1, g2, g3⟩ := catch_up (same := Eq) (stepsOf_walk h8)
        have hr0 : Reachable exC exStepTwice Option.none 0 s0 := reachable_stepsLoop .init g1
        have hses : Session exC Eq exStepTwice Option.none 0 s0 last := session_loop .init g1
        obtain ⟨l, hl, he, _⟩ := idle_echo hr0 g3
        -- the first four events have been passed one by one
        obtain rfl : l = [] := by
          rcases List.eq_nil_or_concat l with h0 | ⟨ini, z, h0⟩
          · exact h0
          · exfalso
            rw [List.concat_eq_append] at h0
            obtain ⟨e, hle, hze⟩ := he z (by rw [h0]; simp)
            rw [hl, h0, List.map_append, List.map_append, ← List.append_assoc] at hka
            obtain ⟨h5, h6⟩ := List.append_inj' (t₁ := [z.2.act.kind]) (t₂ := [Kind.other]) (s₂ := [.conflict, .selected, .fired]) hka rfl
            have h7 : z.2.act.kind = .other := by simpa using h6
            rw [g2] at hle
            unfold Sim.current at hle
            cases hlast : s0.trace.getLast? with
            | none => rw [hlast] at hle; cases hle
            | some u =>
              rw [hlast] at hle
              cases hle
              have : Kind.other ∈ List.map (·.2.act.kind) s0.trace ++ List.map (·.2.act.kind) ini := by
                refine List.mem_append.2 (.inl (List.mem_map.2 ⟨u, List.mem_of_getLast? hlast, ?_⟩))
                have hze : z.2 = u.2 := hze
                rw [← hze]; exact h7
              rw [h5] at this
              revert this; decide
        have hl : a.trace = s0.trace := by simpa using hl
        have hcur : last = some x.2 := by rw [g2]; unfold Sim.current; rw [← hl, hx]; rfl
        -- the fifth one
        obtain ⟨l1, hl1, _⟩ := walk_idle equates_eq (same := Eq) (last := a.current) rfl hra (stepsOf_walk h14)
        have hl1y : l1 = [y] := by
          have : l1.length = 1 := by have := congrArg List.length hl1; rw [List.length_append] at this; omega
          obtain ⟨z, rfl⟩ := List.length_eq_one_iff.1 this
          rw [hl1] at hy
          simpa using hy
        subst hl1y
        -- the sixth one
        obtain ⟨z, hz⟩ : ∃ z, c.trace = b.trace ++ [z] := by
          rcases (reports_step hrb).1 _ hs with h1 | ⟨e, _, h1⟩
          · rw [h1] at hlc; omega
          · exact ⟨_, h1⟩
        refine ⟨n, s0, last, c, _, g1, C57_returns equates_eq hses g2 ((idle_walk g3).trans (stepsOf_walk h14)) (by rw [hl1, hl]) ?_ hs hz ?_, by rw [hlc, ← hl, hla]⟩
        · intro y' hy'; rw [List.mem_singleton.1 hy']; exact ⟨_, hcur, hxy⟩
        · intro e hle hze
          rw [hcur] at hle
          cases hle
          rw [hz] at hkc
          have h1 : z.2.act.kind = .conflict := by simpa using hkc
          have h2 : x.2.act.kind = .other := by
            have h3 := congrArg List.getLast? hka
            rw [List.getLast?_map, hx] at h3
            simpa using h3
          rw [hze, h2] at h1
          cases h1
      | stopped c => rw [hs] at hb; cases hb
      | raised c x => rw [hs] at hb; cases hb
      | empty => rw [hs] at hb; cases hb
    | stopped b => rw [h14] at hb; cases hb
    | raised b x => rw [h14] at hb; cases hb
    | empty => rw [h14] at hb; cases hb
  | stopped a => rw [h8] at hb; cases hb
  | raised a x => rw [h8] at hb; cases hb
  | empty => rw [h8] at hb; cases hb

/-! ## Examples -/

theorem noRepeats_kinds {l : List (ℚ × Verif.Ev)} {k : List Kind} (h : l.map (·.2.act.kind) = k) (hk : k.IsChain (· ≠ ·)) : NoRepeats Eq l := by
  unfold NoRepeats
  subst h
  rw [List.isChain_map] at hk
  exact hk.imp fun a b hab he => hab (by rw [he])

theorem idle_trace {s1 : Sim} (hsame : Equates same) (h : Reachable C w args t s) (hc : last = s.current) (hi : Idle C same last s s1) (hn : NoRepeats same s1.trace) :
    s1.trace = s.trace := by
  obtain ⟨l, hl, he, _⟩ := idle_echo h hi
  cases l with
  | nil => simpa using hl
  | cons y l =>
    exfalso
    obtain ⟨e, hle, hs⟩ := he y (.head _)
    rw [hc] at hle
    rcases List.eq_nil_or_concat s.trace with h0 | ⟨ini, z, h0⟩
    · simp [Sim.current, h0] at hle
    · rw [List.concat_eq_append] at h0
      rw [current_append _ _ _ h0] at hle
      cases hle
      rw [hl, h0] at hn
      have : (ini ++ ([z, y] ++ l)).IsChain (fun a b => ¬ same a.2 b.2) := by
        unfold NoRepeats at hn
        simpa using hn
      exact (List.isChain_pair.1 (List.isChain_append.1 (List.isChain_append.1 this).2.1).1) (hsame.symm _ _ hs)

theorem loop_unsnoc {n : ℕ} (h : StepsLoop C same (n + 1) s last s' last' .returned) :
    ∃ s1 last1, StepsLoop C same n s last s1 last1 .returned ∧ StepCall C same s1 last1 s' last' .returned := by
  generalize he : StepEnd.returned = r at h
  generalize hm : n + 1 = m at h
  induction h generalizing n with
  | zero => cases hm
  | @more m s s1 s' last last1 last' r h1 h2 ih =>
    cases hm
    cases m with
    | zero =>
      cases h2
      exact ⟨s, last, he ▸ .zero, he ▸ h1⟩
    | succ n =>
      obtain ⟨s2, last2, h3, h4⟩ := ih he rfl
      subst he
      exact ⟨s2, last2, .more h1 h3, h4⟩
  | left _ hne => exact absurd he.symm hne

/-- Calls of `step` that pass the events one by one. -/
theorem stepped_through {s1 : Sim} {k : List Kind} (hw : Relation.ReflTransGen (fun a b : Sim => a.step C = .ok b) (Sim.init w args t) s1)
    (hk : s1.trace.map (·.2.act.kind) = k) (hc : k.IsChain (· ≠ ·)) : ∃ s last, StepsLoop C Eq k.length (Sim.init w args t) Option.none s last .returned ∧
      last = s.current ∧ s.trace = s1.trace ∧ NoRepeats Eq s.trace ∧ Idle C Eq last s s1 := by
  have hno := noRepeats_kinds hk hc
  obtain ⟨n, s0, last, g1, g2, g3⟩ := catch_up (same := Eq) hw
  have ht := idle_trace equates_eq (reachable_session (session_loop .init g1)) g2 g3 hno
  rw [ht] at hno
  have hn := (C57_start_partial equates_eq g1 hno).1
  rw [← ht] at hn
  have : k.length = n := by rw [← hk, ← hn]; simp
  subst this
  exact ⟨s0, last, g1, g2, ht.symm, hno, g3⟩

/-- The presses of the model `exPresser` can be followed step by step; here are 23 calls of `step` and another one. -/
theorem exSim_stepped : ∃ s last s' last', StepsLoop exC Eq 23 exSim Option.none s last .returned ∧ StepCall exC Eq s last s' last' .returned ∧ NoRepeats Eq s'.trace ∧
    s'.trace.length = 24 := by
  have hb : (match stepsOf exC 100 exSim with | .ok a => decide (a.trace.map (·.2.act.kind) =
      [.conflict, .starting, .selected, .fired, .command, .conflict, .noRule, .printed, .conflict, .noRule, .prepared, .conflict, .noRule, .initiated,
       .conflict, .noRule, .pressed, .conflict, .noRule, .finished, .conflict, .selected, .fired, .command]) | _ => false) = true := by decide +kernel
  cases ha : stepsOf exC 100 exSim with
  | ok a =>
    rw [ha] at hb
    have hk := of_decide_eq_true hb
    obtain ⟨s', last', h1, _, h3, h4, _⟩ := stepped_through (stepsOf_walk ha) hk (by decide)
    obtain ⟨s, last, h5, h6⟩ := loop_unsnoc (n := 23) h1
    refine ⟨s, last, s', last', h5, h6, h4, ?_⟩
    rw [h3]
    have := congrArg List.length hk
    simpa using this
  | stopped a => rw [ha] at hb; cases hb
  | raised a x => rw [ha] at hb; cases hb
  | empty => rw [ha] at hb; cases hb

example : ∃ (s s' : Sim) (x : ℚ × Verif.Ev), s.trace.length = 23 ∧ s'.trace = s.trace ++ [x] ∧ s'.showTime = x.2.time := by
  obtain ⟨s, last, s', last', h1, h2, h3, h4⟩ := exSim_stepped
  have hses : Session exC Eq exPresser exEnvArgs 0 s last := session_loop .init h1
  obtain ⟨s1, last1, _, h6⟩ := loop_unsnoc (n := 22) h1
  obtain ⟨x, hx, _, _, ht⟩ := C57_one_partial equates_eq hses (C57_last h6).1 h2 h3
  refine ⟨s, s', x, ?_, hx, ht⟩
  rw [hx] at h4
  simpa using h4

/-- In a model without rules two events are reported; a third call of `step` raises EmptySchedule. -/
example : ∃ s last s', StepsLoop exC Eq 2 (Sim.init (exMach [] []) Option.none 0) Option.none s last .returned ∧ StepCall exC Eq s last s' last .exhausted := by
  have hb : (match stepsOf exC 5 (Sim.init (exMach [] []) Option.none 0) with
    | .ok a => decide (a.trace.map (·.2.act.kind) = [.conflict, .noRule]) && a.queue.isEmpty | _ => false) = true := by decide +kernel
  cases ha : stepsOf exC 5 (Sim.init (exMach [] []) Option.none 0) with
  | ok a =>
    rw [ha] at hb
    simp only [Bool.and_eq_true, decide_eq_true_eq] at hb
    obtain ⟨s, last, h1, h2, h3, _, h5⟩ := stepped_through (stepsOf_walk ha) hb.1 (by decide)
    obtain ⟨s', hs'⟩ := C57_ends equates_eq (session_loop .init h1) h2 (idle_walk h5) (l := []) (by rw [h3]; simp) (by simp) (by simpa using hb.2) (by
      unfold compileIn
      exact ⟨_, rfl⟩)
    exact ⟨s, last, s', h1, hs'⟩
  | stopped a => rw [ha] at hb; cases hb
  | raised a x => rw [ha] at hb; cases hb
  | empty => rw [ha] at hb; cases hb

end Verif.Props
