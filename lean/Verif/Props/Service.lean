import Verif.Lemmas.Firm
import Verif.Spec.Service
import Verif.Props.Quiet
import Verif.Props.Preempt
/-! # Modules stay in service (property C85) -/
namespace Verif.Props
open Verif Verif.Spec

variable {C : Cfg} {w : Mach} {args : Option EnvArgs} {t0 : ℚ} {s s' : Sim} {p : ℕ} {n : String}

theorem extra_reachable (h : Reachable C w args t0 s) (hn : n ∈ w.bufs.map Prod.fst) (hP : n ≠ procName) : ∃ p, (n, p) ∈ s.extra := by
  have h1 := (firm_init (K := True) w args t0).2
  have : n ∈ (Sim.init w args t0).extra.map Prod.fst := by rw [h1]; simpa [hP] using hn
  obtain ⟨⟨m, p⟩, h2, rfl⟩ := List.mem_map.1 this
  exact ⟨p, by rw [(firm_reachable h).2]; exact h2⟩

theorem serves_module {pt : Pt} (h : s.points p = some pt) (hm : pt.module = some n) : InService s n p := by
  cases pt with
  | extraNew m => cases hm; exact .inl h
  | extraIdle m => cases hm; exact .inr (.inl h)
  | extraMain m pro => cases hm; exact .inr (.inr (.inl ⟨pro, h⟩))
  | extraCont m => cases hm; exact .inr (.inr (.inr h))
  | _ => cases hm

/-- C85. Each module has a process, the same one from the beginning. As long as no exception has been raised, it serves the module, or it
has just failed and its exception is about to be raised. -/
theorem C85 (h : Unraised C w args t0 s) (hn : n ∈ w.bufs.map Prod.fst) (hP : n ≠ procName) :
    ∃ p, (n, p) ∈ (Sim.init w args t0).extra ∧ (n, p) ∈ s.extra ∧ (InService s n p ∨ ∃ x, FailsNow s p x) := by
  have hr := reachable_unraised h
  obtain ⟨p, hp⟩ := extra_reachable hr hn hP
  refine ⟨p, by rw [← (firm_reachable hr).2]; exact hp, hp, ?_⟩
  have hf := firm_unraised h
  cases hpt : s.points p with
  | some pt => exact .inl (serves_module hpt (hf.alive n p pt hp hpt).1)
  | none =>
    obtain ⟨x, l, h1, rfl | ⟨h2, _⟩⟩ := hf.dead n p hp hpt
    · obtain ⟨en, hen, he⟩ := (awake_reachable hr).queued p (by rw [h1]; rfl) (by rw [h1]; simp)
      refine .inr ⟨x, hpt, by rw [h1], by rw [h1], en, hen, he, ?_⟩
      exact (hf.soon en hen).resolve_right fun h3 => h3 n (he ▸ hp)
    · exact h2.elim

/-- When the next step is about to move the clock on, each module is served, whether or not that step raises an exception. -/
theorem C85_clock (h : Unraised C w args t0 s) (hs : Stepped.leads (s.step C) s') (ht : s.now < s'.now) (hn : n ∈ w.bufs.map Prod.fst) (hP : n ≠ procName) :
    ∃ p, (n, p) ∈ s.extra ∧ InService s n p := by
  obtain ⟨p, -, hp, h1 | ⟨x, -, -, -, en, hen, -, hle⟩⟩ := C85 h hn hP
  · exact ⟨p, hp, h1⟩
  · have hi := (fine_reachable (reachable_unraised h)).1
    exfalso
    have hnow : ∀ e q, s.queue = e :: q → s'.now = e.time → False := fun e q hq he => by
      have : e.time ≤ en.time := by
        have hso := hi.sorted
        rw [hq] at hen hso
        rcases List.mem_cons.1 hen with rfl | hen
        · exact le_rfl
        · exact upTo_le ((List.pairwise_cons.1 hso).1 en hen)
      rw [he] at ht
      exact absurd ht (not_lt.2 (this.trans hle))
    rcases step_cases (C := C) (s := s) rfl with ⟨h0, _⟩ | ⟨e, q, hq, ⟨_, h0⟩ | ⟨_, h0 | ⟨_, h0⟩⟩⟩ <;> rw [h0] at hs <;> rcases hs with hs | hs | ⟨_, hs⟩ <;> cases hs
    · exact hnow e q hq rfl
    · exact hnow e q hq (fine_called C (fine_reachable (reachable_unraised h)) hq (by assumption)).2.now
    · exact hnow e q hq (fine_called C (fine_reachable (reachable_unraised h)) hq (by assumption)).2.now

/-- The process of a module never returns: when it has ended, it has ended with an exception, which nobody but the simulation deals with.
This holds also after exceptions. -/
theorem C85_ends (h : Reachable C w args t0 s) (hp : (n, p) ∈ s.extra) (hpt : s.points p = Option.none) : ∃ x, (s.events p).value = some (.error x) ∧ (s.events p).defused = false := by
  obtain ⟨x, l, h1, _⟩ := (firm_reachable h).1.dead n p hp hpt
  exact ⟨x, by rw [h1], by rw [h1]⟩

/-- The exception of a module is raised when its turn has come. -/
theorem C85_raised (h : Unraised C w args t0 s) (hp : (n, p) ∈ s.extra) {x : PyErr} (hx : FailsNow s p x) {en : Entry} {q : List Entry} (hq : s.queue = en :: q) (he : en.ev = p) :
    ∃ s', s.step C = .raised s' x := by
  obtain ⟨y, h1, h2⟩ := step_module (C := C) (firm_unraised h) (fine_reachable (reachable_unraised h)).1 hq (n := n) (he ▸ hp)
  rw [he, hx.2.1] at h2
  cases h2
  exact ⟨_, h1⟩

/-- C84 for modules: when nothing is left to happen and no exception has been raised, each module waits to be called, nothing has called
it, and no request is left for it, neither in the list of the simulation nor in that of the rules. -/
theorem C84_modules (hw : (w.bufs.map Prod.fst).Nodup) (hf : ∀ n, requestsFor n w.procs = []) (h : Unraised C w args t0 s) (he : s.step C = .empty) (hn : n ∈ w.bufs.map Prod.fst) (hP : n ≠ procName) :
    (∃ p, (n, p) ∈ s.extra ∧ s.points p = some (.extraIdle n) ∧ (s.events (s.target p)).value = Option.none) ∧ requestsFor n s.startedList = [] ∧ requestsFor n s.w.procs = [] := by
  have hr := reachable_unraised h
  have hq := queue_of_empty he
  obtain ⟨p, -, hp, h1 | ⟨x, -, -, -, en, hen, -⟩⟩ := C85 h hn hP
  · have hne : s.points p ≠ Option.none := by rcases h1 with h1 | h1 | ⟨_, h1⟩ | h1 <;> rw [h1] <;> simp
    obtain ⟨h2, h3⟩ := C84 hr he hne
    have h4 : s.points p = some (.extraIdle n) := by
      rcases h1 with h1 | h1 | ⟨_, h1⟩ | h1
      · rw [h1] at h2; rcases h2 with h2 | ⟨_, h2⟩ <;> cases h2
      · exact h1
      · rw [h1] at h2; rcases h2 with h2 | ⟨_, h2⟩ <;> cases h2
      · rw [h1] at h2; rcases h2 with h2 | ⟨_, h2⟩ <;> cases h2
    have h5 := C64_idle_partial hw hf h (by rw [hq]; simp) h4
    refine ⟨⟨p, hp, h4, h3⟩, h5, ?_⟩
    cases hst : s.started with
    | none => unfold Sim.startedList at h5; rw [hst] at h5; exact h5
    | some l =>
      by_contra hne
      have h6 := (mindful_unraised hw (fun n => by rw [orders_requests, hf n]; rfl) h _ (C84_rules h he).1).fresh (by rw [hst]; rfl) n (by rw [orders_requests]; exact List.length_pos_iff.2 hne)
      rcases h6.1 with h7 | h7 <;> cases h7
  · rw [hq] at hen; cases hen

/-- C64 to its end: when nothing is left to happen and no exception has been raised, each request that a rule made was taken up. -/
theorem C64_taken_partial (hw : (w.bufs.map Prod.fst).Nodup) (hf : ∀ n, requestsFor n w.procs = []) (h : Reachable C w args t0 s) (hg : GoesOn C s s') (h' : Unraised C w args t0 s') (he : s'.step C = .empty)
    (hn : n ∈ w.bufs.map Prod.fst) (hP : n ≠ procName) {r : ℕ × Desc} (hr : r ∈ requestsFor n s.w.procs) :
    ∃ s1 s2, GoesOn C s s1 ∧ Stepped.leads (s1.step C) s2 ∧ GoesOn C s2 s' ∧ TakesUp C s1 s2 n r := by
  obtain ⟨l1, l2, hr⟩ := List.append_of_mem hr
  rcases C64_waits_partial hw h hg hr with ⟨l, l3, _, h1⟩ | h1
  · rw [(C84_modules hw hf h' he hn hP).2.2] at h1
    simp at h1
  · exact h1

/-! ## Examples -/

/-- A goal that is empty, and a rule that fires once and asks for another one. -/
def exOnce : Mach :=
  { exMach exManualReg [("g", exBuf .goal)] with
    mems := [⟨[], [], [], []⟩], dms := [("decmem", 0)],
    rules := [("once", ⟨⟨.ok [(⟨'?', "g"⟩, .dict [("buffer", "empty")])], .ok [(⟨'+', "g"⟩, .chunk (exPress "a"))]⟩, 0, Option.none⟩)], ordered := ["once"] }

/-- After seven steps the rule has fired and its request waits, after eighteen more nothing is left to happen. -/
theorem ex_once : ∃ s s', Reachable exC exOnce Option.none 0 s ∧ GoesOn exC s s' ∧ Unraised exC exOnce Option.none 0 s' ∧ s'.step exC = .empty ∧ orders "g" s.w.procs = 1 := by
  have hb : ((Stepped.state? (stepsOf exC 7 (Sim.init exOnce Option.none 0))).bind fun s => (Stepped.state? (stepsOf exC 18 s)).map fun s' => (orders "g" s.w.procs, s'.queue.isEmpty)) = some (1, true) := by decide +kernel
  cases h1 : Stepped.state? (stepsOf exC 7 (Sim.init exOnce Option.none 0)) with
  | none => rw [h1] at hb; cases hb
  | some s =>
    rw [h1] at hb
    replace hb : (Stepped.state? (stepsOf exC 18 s)).map _ = _ := hb
    cases h2 : Stepped.state? (stepsOf exC 18 s) with
    | none => rw [h2] at hb; cases hb
    | some s' =>
      rw [h2] at hb
      obtain ⟨h3, h4⟩ := Prod.mk.inj (Option.some.inj hb)
      exact ⟨s, s', stepsOf_ok .init (state?_some h1), stepsOf_goesOn (.refl _) (state?_some h2), stepsOf_unraised (stepsOf_unraised .init (state?_some h1)) (state?_some h2), empty_of_queue (List.isEmpty_iff.1 h4), h3⟩

/-- C84_modules and C64_taken_partial, an instance. -/
example : ∃ s s' r s1 s2, requestsFor "g" s.w.procs = [r] ∧ GoesOn exC s s1 ∧ GoesOn exC s2 s' ∧ TakesUp exC s1 s2 "g" r ∧ ∃ p, s'.points p = some (.extraIdle "g") := by
  obtain ⟨s, s', h1, h2, h3, h4, h5⟩ := ex_once
  rw [orders_requests] at h5
  obtain ⟨r, hr⟩ := List.length_eq_one_iff.1 h5
  obtain ⟨s1, s2, h6, -, h7, h8⟩ := C64_taken_partial (n := "g") (by decide) (fun _ => rfl) h1 h2 h3 h4 (by decide) (by decide) (r := r) (by rw [hr]; exact .head _)
  obtain ⟨⟨p, -, h9, -⟩, -⟩ := C84_modules (n := "g") (by decide) (fun _ => rfl) h3 h4 (by decide) (by decide)
  exact ⟨s, s', r, s1, s2, hr, h6, h7, h8, p, h9⟩

/-- C85 and C85_clock, an instance: after 18 steps the clock is about to go on, and the module is served. -/
theorem ex_clockNext : ∃ s s', Unraised exC exGlance exLookArgs 0 s ∧ Stepped.leads (s.step exC) s' ∧ s.now < s'.now := by
  have hb : ((Stepped.state? (stepsOf exC 18 (Sim.init exGlance exLookArgs 0))).bind fun s => (Stepped.state? (s.step exC)).map fun s' => decide (s.now < s'.now)) = some true := by decide +kernel
  cases h1 : Stepped.state? (stepsOf exC 18 (Sim.init exGlance exLookArgs 0)) with
  | none => rw [h1] at hb; cases hb
  | some s =>
    rw [h1] at hb
    replace hb : (Stepped.state? (s.step exC)).map _ = _ := hb
    cases h2 : Stepped.state? (s.step exC) with
    | none => rw [h2] at hb; cases hb
    | some s' =>
      rw [h2] at hb
      exact ⟨s, s', stepsOf_unraised .init (state?_some h1), .inl (state?_some h2), of_decide_eq_true (Option.some.inj hb)⟩

example : ∃ s p, Unraised exC exGlance exLookArgs 0 s ∧ InService s "visual_location" p := by
  obtain ⟨s, s', h1, h2, h3⟩ := ex_clockNext
  obtain ⟨p, -, hp⟩ := C85_clock (n := "visual_location") h1 h2 h3 (by decide) (by decide)
  exact ⟨s, p, h1, hp⟩

/-- After 27 steps the module of the example of C63 has failed, and its turn has come. -/
theorem ex_failsNow : ∃ s en q, Unraised exC exSearcher exLookArgs 0 s ∧ s.queue = en :: q ∧ ("visual_location", en.ev) ∈ s.extra ∧ s.points en.ev = Option.none := by
  have hb : ((Stepped.state? (stepsOf exC 27 (Sim.init exSearcher exLookArgs 0))).map fun s => match s.queue with
      | [] => false
      | en :: _ => decide (("visual_location", en.ev) ∈ s.extra) && (s.points en.ev).isNone) = some true := by decide +kernel
  cases h1 : Stepped.state? (stepsOf exC 27 (Sim.init exSearcher exLookArgs 0)) with
  | none => rw [h1] at hb; cases hb
  | some s =>
    rw [h1] at hb
    replace hb := Option.some.inj hb
    dsimp only at hb
    cases hq : s.queue with
    | nil => rw [hq] at hb; cases hb
    | cons en q =>
      rw [hq] at hb
      dsimp only at hb
      rw [Bool.and_eq_true] at hb
      exact ⟨s, en, q, stepsOf_unraised .init (state?_some h1), hq, of_decide_eq_true hb.1, Option.isNone_iff_eq_none.1 hb.2⟩

/-- C85, C85_ends and C85_raised, an instance: it is the exception of the module that is raised. -/
example : ∃ s p x s', Unraised exC exSearcher exLookArgs 0 s ∧ FailsNow s p x ∧ s.step exC = .raised s' x := by
  obtain ⟨s, en, q, h1, hq, h2, h3⟩ := ex_failsNow
  obtain ⟨x, h4, h5⟩ := C85_ends (reachable_unraised h1) h2 h3
  have hf : FailsNow s en.ev x := ⟨h3, h4, h5, en, by rw [hq]; exact .head _, rfl, ((firm_unraised h1).soon en (by rw [hq]; exact .head _)).resolve_right fun h => h _ h2⟩
  obtain ⟨s', hs⟩ := C85_raised h1 h2 hf hq rfl
  exact ⟨s, en.ev, x, s', h1, hf, hs⟩

end Verif.Props
