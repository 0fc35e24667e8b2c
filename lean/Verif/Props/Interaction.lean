import Verif.Props.Simulation
import Verif.Lemmas.SimEnv
/-! # Property C47: key presses and the environment -/
namespace Verif.Props
open Verif Verif.Spec

/-- C47 in full: a call of `run` never ends with a RuntimeError after a key press. -/
def C47_full : Prop :=
  ∀ (C : Cfg) (w : Mach) (args : Option EnvArgs) (t0 : ℚ) (s s' : Sim) (t : ℚ), Reachable C w args t0 s → RunCall C s t s' (.error .runtime) →
    ∀ x key, s'.trace.getLast? = some x → x.2.act ≠ .pressed key

/-- It is not so: with one stimulus on the screen, the second time A is pressed the run crashes. -/
theorem C47_refuted : ¬ C47_full := by
  intro h
  have he : (stepsOf exC 200 (exSim.setStop 10).1).error = some .runtime := by decide +kernel
  have hk : (stepsOf exC 200 (exSim.setStop 10).1).kinds.getLast? = some .pressed := by decide +kernel
  have hs : (exSim.setStop 10).2.isOk = true := by decide +kernel
  generalize hst : stepsOf exC 200 (exSim.setStop 10).1 = x at he hk
  cases x with
  | ok s => cases he
  | stopped s => cases he
  | empty => cases he
  | raised s x =>
    obtain rfl : x = .runtime := by simpa [Stepped.error] using he
    have hk : (s.trace.map (·.2.act.kind)).getLast? = some .pressed := hk
    rw [List.getLast?_map] at hk
    obtain ⟨y, hy, hyk⟩ := Option.map_eq_some_iff.1 hk
    have hset : exSim.setStop 10 = ((exSim.setStop 10).1, .ok ()) := by
      rcases hx : exSim.setStop 10 with ⟨s1, r⟩
      rw [hx] at hs
      cases r with
      | ok u => rfl
      | error e => cases hs
    cases hact : y.2.act <;> rw [hact] at hyk <;> simp [Act.kind] at hyk
    exact h exC exPresser exEnvArgs 0 exSim s 10 .init (.failed hset (stepsOf_runsOn hst)) y _ hy hact

/-- C47, partially: if there is no environment, or no key that was pressed is among its triggers, a process of a module that reports an
event, such as a key press, goes on. -/
theorem C47_partial (s : Sim) (name : String) (e : Verif.Ev) (k : Mach → Out Mach YV Unit) (v : SVal)
    (hn : ∀ env tr key, s.w.env = some env → env.trigger = some tr → key ∈ tr → key ∉ s.w.interaction) :
    ∃ s1, localResume name e k (.ok v) s = localRun name (k s1.w) s1 ∧ s1.envActivate = s.envActivate := by
  have h1 : ∃ s1, printEvent e s = (s1, .ok ()) ∧ s1.w = s.w ∧ s1.envActivate = s.envActivate := by
    rcases printEvent_cases e with ⟨_, he⟩ | ⟨_, he⟩ <;> rw [he] <;> exact ⟨_, rfl, rfl, rfl⟩
  obtain ⟨s1, h1, hw1, ha1⟩ := h1
  have h2 : ∃ s2, activateProc e s1 = (s2, .ok ()) ∧ s2.w = s1.w ∧ s2.envActivate = s1.envActivate := by
    rcases activateProc_cases e with he | he <;> rw [he]
    · exact ⟨_, rfl, rfl, rfl⟩
    · by_cases ht : s1.triggered s1.procActivate = true
      · exact ⟨s1, by simp only [ht, if_true], rfl, rfl⟩
      · exact ⟨s1.trigger s1.procActivate (.ok .nothing), by simp [succeed, ht], rfl, rfl⟩
  obtain ⟨s2, h2, hw2, ha2⟩ := h2
  have h3 : ∃ s3, envInteraction s2 = (s3, .ok ()) ∧ s3.envActivate = s2.envActivate := by
    unfold envInteraction
    rw [hw2, hw1]
    cases hv : s.w.env with
    | none => exact ⟨s2, rfl, rfl⟩
    | some env =>
      have : triggersEnv env s.w.interaction = false := by
        unfold triggersEnv
        cases ht : env.trigger with
        | none => rfl
        | some tr =>
          rw [List.any_eq_false]
          intro key hk
          have := hn env tr key hv ht hk
          simpa using this
      simp only [this]
      exact ⟨_, rfl, rfl⟩
  obtain ⟨s3, h3, ha3⟩ := h3
  refine ⟨s3, ?_, ha3.trans (ha2.trans ha1)⟩
  show SimM.bind (printEvent e) _ s = _
  simp only [SimM.bind, h1]
  show SimM.bind (activateProc e) _ s1 = _
  simp only [SimM.bind, h2]
  show SimM.bind envInteraction _ s2 = _
  simp only [SimM.bind, h3]
  rfl

/-- A key that is among the triggers of the environment has been pressed. -/
def PressedTrigger (w : Mach) : Prop := ∃ env tr key, w.env = some env ∧ env.trigger = some tr ∧ key ∈ tr ∧ key ∈ w.interaction

theorem triggersEnv_iff {w : Mach} {env : Env} (he : w.env = some env) : triggersEnv env w.interaction = true ↔ PressedTrigger w := by
  unfold triggersEnv
  constructor
  · intro h
    cases ht : env.trigger with
    | none => rw [ht] at h; cases h
    | some tr =>
      rw [ht] at h
      obtain ⟨key, h1, h2⟩ := List.any_eq_true.1 h
      exact ⟨env, tr, key, he, ht, h1, by simpa using h2⟩
  · rintro ⟨env', tr, key, he', ht, h1, h2⟩
    rw [he] at he'; cases he'
    rw [ht]
    exact List.any_eq_true.2 ⟨key, h1, by simpa using h2⟩

/-- C47, partially: when the environment waits and has been told that a key was pressed, it is going to be resumed before the clock moves on. -/
theorem C47_ready_partial (C : Cfg) (w : Mach) (args : Option EnvArgs) (t0 : ℚ) (s : Sim) (hr : Reachable C w args t0 s) (p pro : ℕ)
    (k : Mach → Out Mach EnvEvent Unit) (hp : s.points p = some (.envWait pro k)) (ht : s.triggered s.envActivate = true) :
    ∃ en ∈ s.queue, en.time = s.now ∧ (en.ev = s.envActivate ∨ en.ev = s.target p) := by
  obtain ⟨hg, hw⟩ := watched_reachable hr
  have hw := hw p pro k hp
  rcases hg.sched ht with ⟨en, hen, he⟩ | hn
  · exact ⟨en, hen, hg.time en hen he, .inl he⟩
  · have hc : (s.events (s.target p)).value.isSome := by
      by_contra hc
      have := (hw.check (by simpa using hc)).resolve_right (by simp)
      rw [Sim.cbs, hn] at this
      simp at this
    obtain ⟨en, hen, he⟩ := (hw.sched hc).resolve_right (by simp)
    exact ⟨en, hen, hw.time en hen he, .inr he⟩

/-- C47, partially: suppose that the environment waits, and that nothing it waits for is going to happen at this very moment. Then a process that
reports an event, such as a key press, goes on; what was pressed is forgotten; and the environment is told, at once, if and only if the key is
among its triggers. -/
theorem C47_press_partial (C : Cfg) (w : Mach) (args : Option EnvArgs) (t0 : ℚ) (s : Sim) (hr : Reachable C w args t0 s) (en : Entry) (q : List Entry)
    (hq : s.queue = en :: q) (p pro : ℕ) (ke : Mach → Out Mach EnvEvent Unit) (hp : s.points p = some (.envWait pro ke))
    (hno : ∀ x ∈ s.queue, x.time = en.time → x.ev ≠ s.envActivate ∧ x.ev ≠ s.target p)
    (name : String) (e : Verif.Ev) (k : Mach → Out Mach YV Unit) (v : SVal) :
    ∃ s1, localResume name e k (.ok v) (s.taken en q) = localRun name (k s1.w) s1 ∧ s1.now = en.time ∧ s1.envActivate = s.envActivate ∧
      (s.w.env.isSome → s1.w.interaction = []) ∧ s1.w.env = s.w.env ∧ (s1.triggered s.envActivate = true ↔ PressedTrigger s.w) ∧
      (PressedTrigger s.w → ∃ x ∈ s1.queue, x.ev = s.envActivate ∧ x.time = en.time) := by
  have hi := (fine_reachable hr).1
  have hhead : en ∈ s.queue := by rw [hq]; exact .head _
  have hfree : s.triggered s.envActivate = false := by
    by_contra hc
    obtain ⟨x, hx, hxt, hxe⟩ := C47_ready_partial C w args t0 s hr p pro ke hp (by simpa using hc)
    have hle : en.time ≤ x.time := by
      have hsorted := hi.sorted
      rw [hq] at hsorted hx
      rcases List.mem_cons.1 hx with rfl | hx
      · exact le_rfl
      · exact upTo_le ((List.pairwise_cons.1 hsorted).1 x hx)
    have := hno x hx (le_antisymm (by rw [hxt]; exact hi.ahead en hhead) hle)
    exact hxe.elim this.1 this.2
  have hne : s.envActivate ≠ s.procActivate := (watched_reachable hr).1.apart
  have hfree0 : (s.taken en q).triggered s.envActivate = false := by
    unfold Sim.triggered at *; rw [(thin_taken s en q).value]; exact hfree
  have h1 : ∃ s1, printEvent e (s.taken en q) = (s1, .ok ()) ∧ s1.w = s.w ∧ s1.envActivate = s.envActivate ∧ s1.procActivate = s.procActivate ∧ s1.now = en.time ∧
      s1.triggered s.envActivate = false := by
    rcases printEvent_cases e with ⟨_, he⟩ | ⟨_, he⟩ <;> rw [he] <;> exact ⟨_, rfl, rfl, rfl, rfl, rfl, hfree0⟩
  obtain ⟨s1, h1, hw1, ha1, hp1, hn1, hf1⟩ := h1
  have h2 : ∃ s2, activateProc e s1 = (s2, .ok ()) ∧ s2.w = s1.w ∧ s2.envActivate = s1.envActivate ∧ s2.now = s1.now ∧ s2.triggered s.envActivate = false := by
    rcases activateProc_cases e with he | he <;> rw [he]
    · exact ⟨_, rfl, rfl, rfl, rfl, hf1⟩
    · by_cases ht : s1.triggered s1.procActivate = true
      · exact ⟨s1, by simp only [ht, if_true], rfl, rfl, rfl, hf1⟩
      · refine ⟨s1.trigger s1.procActivate (.ok .nothing), by simp [succeed, ht], rfl, rfl, rfl, ?_⟩
        simpa [Sim.triggered, Sim.trigger, Sim.schedule, fset, hp1, hne] using hf1
  obtain ⟨s2, h2, hw2, ha2, hn2, hf2⟩ := h2
  have h3 : ∃ s3, envInteraction s2 = (s3, .ok ()) ∧ s3.envActivate = s2.envActivate ∧ s3.now = s2.now ∧ (s.w.env.isSome → s3.w.interaction = []) ∧ s3.w.env = s.w.env ∧
      (s3.triggered s.envActivate = true ↔ PressedTrigger s.w) ∧ (PressedTrigger s.w → ∃ x ∈ s3.queue, x.ev = s.envActivate ∧ x.time = s2.now) := by
    have hww : s2.w = s.w := hw2.trans hw1
    have hact : s2.envActivate = s.envActivate := ha2.trans ha1
    unfold envInteraction
    rw [hww]
    cases hv : s.w.env with
    | none =>
      have hnot : ¬ PressedTrigger s.w := by rintro ⟨env, _, _, h, _⟩; rw [hv] at h; cases h
      exact ⟨s2, rfl, rfl, rfl, by simp, by rw [hww, hv], by simp [hf2, hnot], fun h => absurd h hnot⟩
    | some env =>
      dsimp only
      by_cases ht : triggersEnv env s.w.interaction = true
      · have hpt := (triggersEnv_iff hv).1 ht
        rw [if_pos ht]
        have hsuc : succeed s2.envActivate s2 = (s2.trigger s2.envActivate (.ok .nothing), .ok ()) := by
          unfold succeed; rw [hact, hf2]; simp
        refine ⟨{ s2.trigger s2.envActivate (.ok .nothing) with w := { s2.w with interaction := [] } }, ?_, rfl, rfl, fun _ => rfl, by show s2.w.env = _; rw [hww, hv],
          by simp [Sim.triggered, Sim.trigger, Sim.schedule, fset, hact, hpt],
          fun _ => ⟨⟨s2.now + 0, false, s2.envActivate⟩, (mem_insertEntry _ _ _).2 (.inl rfl), hact, add_zero _⟩⟩
        simp only [SimM.bind, hsuc]
        rfl
      · have hpt := fun h => ht ((triggersEnv_iff hv).2 h)
        rw [if_neg ht]
        exact ⟨_, rfl, rfl, rfl, fun _ => rfl, by show s2.w.env = _; rw [hww, hv], by
          have : ¬ s2.triggered s.envActivate = true := by rw [hf2]; simp
          exact ⟨fun h => absurd h this, fun h => absurd h hpt⟩, fun h => absurd h hpt⟩
  obtain ⟨s3, h3, ha3, hn3, hi3, he3, ht3, hq3⟩ := h3
  refine ⟨s3, ?_, hn3.trans (hn2.trans hn1), ha3.trans (ha2.trans ha1), hi3, he3, ht3, fun h => ?_⟩
  · show SimM.bind (printEvent e) _ (s.taken en q) = _
    simp only [SimM.bind, h1]
    show SimM.bind (activateProc e) _ s1 = _
    simp only [SimM.bind, h2]
    show SimM.bind envInteraction _ s2 = _
    simp only [SimM.bind, h3]
    rfl
  · obtain ⟨x, hx, hxe, hxt⟩ := hq3 h
    exact ⟨x, hx, hxe, hxt.trans (hn2.trans hn1)⟩

/-- C47, partially: the environment that was told and whose stimulus has not ended is resumed by the event it waits for, and then it prepares for the next
press, has the stimulus ended now, and goes on. -/
theorem C47_advance_partial (C : Cfg) (w : Mach) (args : Option EnvArgs) (t0 : ℚ) (s : Sim) (hr : Reachable C w args t0 s) (en : Entry) (q : List Entry)
    (_ : s.queue = en :: q) (p pro : ℕ) (k : Mach → Out Mach EnvEvent Unit) (hp : s.points p = some (.envWait pro k)) (hev : en.ev = s.target p)
    (ht : s.triggered s.envActivate = true) (hpro : s.triggered pro = false) (v : SVal) :
    .resume p ∈ s.cbs en.ev ∧ ∃ s1, code C (.envWait pro k) (.ok v) (s.taken en q) = envAdvance k s1 ∧ s1.w = s.w ∧ s1.now = en.time ∧ s1.triggered s1.envActivate = false ∧
      ∃ x ∈ s1.queue, x.time = en.time ∧ .interrupt pro ∈ s1.cbs x.ev := by
  have hw := (watched_reachable hr).2 p pro k hp
  refine ⟨by rw [hev]; exact hw.wake.resolve_right (by simp), ?_⟩
  have hval := (thin_taken s en q).value
  have ht0 : (s.taken en q).triggered (s.taken en q).envActivate = true := by
    unfold Sim.triggered at *; rw [hval]; exact ht
  set s1 : Sim := { (s.taken en q).alloc ⟨Option.none, false, some []⟩ with envActivate := s.next } with hs1
  have hold : ∀ x, x ≠ s.next → s1.events x = (s.taken en q).events x := fun x hx => events_alloc_old (s := s.taken en q) hx
  have hnew : s1.events s.next = ⟨Option.none, false, some []⟩ := events_alloc_new (s := s.taken en q)
  have hpro1 : s1.triggered pro = false := by
    by_cases hx : pro = s.next
    · unfold Sim.triggered; rw [hx, hnew]; rfl
    · unfold Sim.triggered at *; rw [hold pro hx, hval]; exact hpro
  have hint : interruptProcess pro s1 = ((s1.alloc ⟨some (.error .interrupt), true, some [.interrupt pro]⟩).schedule s1.next true 0, .ok ()) := by
    unfold interruptProcess; rw [hpro1]; simp
  refine ⟨(s1.alloc ⟨some (.error .interrupt), true, some [.interrupt pro]⟩).schedule s1.next true 0, ?_, rfl, rfl, ?_,
    ⟨en.time + 0, true, s1.next⟩, (mem_insertEntry _ _ _).2 (.inl rfl), add_zero _, ?_⟩
  · show SimM.bind (envNext pro) (fun _ => envAdvance k) (s.taken en q) = _
    have hnext := envNext_eq pro (s.taken en q)
    rw [if_pos ht0] at hnext
    unfold SimM.bind
    rw [hnext]
    rw [show interruptProcess pro { (s.taken en q).alloc ⟨Option.none, false, some []⟩ with envActivate := (s.taken en q).next } = _ from hint]
  · show (((s1.alloc _).events s.next).value).isSome = false
    rw [events_alloc_old (Nat.ne_of_lt (Nat.lt_succ_self _)), hnew]; rfl
  · show _ ∈ (s1.alloc _).cbs s1.next
    rw [cbs_alloc_new]; simp

/-- A press of B when the environment waits for A. -/
example : ∃ s1, localResume "manual" ⟨0, "manual", .pressed "B"⟩ (fun w => .ret w ()) (.ok .nothing)
    { exSim with w := { exPresser with interaction := ["B"], env := some ⟨0, (0, 0), [], [], [], Option.none, some ["A"]⟩ } } =
      localRun "manual" (.ret s1.w ()) s1 := by
  obtain ⟨s1, h, _⟩ := C47_partial { exSim with w := { exPresser with interaction := ["B"], env := some ⟨0, (0, 0), [], [], [], Option.none, some ["A"]⟩ } }
    "manual" ⟨0, "manual", .pressed "B"⟩ (fun w => .ret w ()) .nothing (by
      intro env tr key he ht hk
      cases he; cases ht
      simp only [List.mem_singleton] at hk
      subst hk
      decide)
  exact ⟨s1, h⟩

/-- Two stimuli, each for ten seconds or until A is pressed. -/
def exLong : Option EnvArgs := some ⟨.list [.text "x", .text "y"], .list [.many ["a"], .many ["a"]], .single 10, 0⟩

/-- The conditions of C47_press_partial, for the process 7. -/
def exReady (s : Sim) : Bool :=
  match s.queue, s.points 7 with
  | en :: _, some (.envWait ..) => s.queue.all (fun x => !(x.time ≤ en.time : Bool) || (x.ev != s.envActivate && x.ev != s.target 7)) &&
    (match s.w.env with | some env => triggersEnv env s.w.interaction | Option.none => false)
  | _, _ => false

/-- The conditions of C47_advance_partial, for the process 7. -/
def exTold (s : Sim) : Bool :=
  match s.queue, s.points 7 with
  | en :: _, some (.envWait pro _) => en.ev == s.target 7 && s.triggered s.envActivate && !s.triggered pro
  | _, _ => false

/-- Before the step that reports the press of A, the conditions of C47_press_partial are met. -/
example : ∃ s en q pro k, Reachable exC exPresser exLong 0 s ∧ s.queue = en :: q ∧ s.points 7 = some (.envWait pro k) ∧
    (∀ x ∈ s.queue, x.time = en.time → x.ev ≠ s.envActivate ∧ x.ev ≠ s.target 7) ∧ PressedTrigger s.w := by
  have h : (match stepsOf exC 53 (Sim.init exPresser exLong 0) with | .ok s => exReady s | _ => false) = true := by decide +kernel
  cases hs : stepsOf exC 53 (Sim.init exPresser exLong 0) with
  | ok s =>
    rw [hs] at h
    dsimp only at h
    unfold exReady at h
    split at h
    · rename_i en q pro k hq hp
      rw [Bool.and_eq_true] at h
      refine ⟨s, en, q, pro, k, stepsOf_ok .init hs, hq, hp, fun x hx ht => ?_, ?_⟩
      · have := List.all_eq_true.1 h.1 x hx
        simpa [ht] using this
      · split at h
        · rename_i env he; exact (triggersEnv_iff he).1 h.2
        · cases h.2
    · cases h
  | stopped s => rw [hs] at h; cases h
  | raised s x => rw [hs] at h; cases h
  | empty => rw [hs] at h; cases h

/-- Four steps later, those of C47_advance_partial. -/
example : ∃ s en q pro k, Reachable exC exPresser exLong 0 s ∧ s.queue = en :: q ∧ s.points 7 = some (.envWait pro k) ∧ en.ev = s.target 7 ∧
    s.triggered s.envActivate = true ∧ s.triggered pro = false := by
  have h : (match stepsOf exC 57 (Sim.init exPresser exLong 0) with | .ok s => exTold s | _ => false) = true := by decide +kernel
  cases hs : stepsOf exC 57 (Sim.init exPresser exLong 0) with
  | ok s =>
    rw [hs] at h
    dsimp only at h
    unfold exTold at h
    split at h
    · rename_i en q pro k hq hp
      simp only [Bool.and_eq_true, beq_iff_eq, Bool.not_eq_true'] at h
      exact ⟨s, en, q, pro, k, stepsOf_ok .init hs, hq, hp, h.1.1, h.1.2, h.2⟩
    · cases h
  | stopped s => rw [hs] at h; cases h
  | raised s x => rw [hs] at h; cases h
  | empty => rw [hs] at h; cases h

end Verif.Props
