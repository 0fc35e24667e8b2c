import Verif.Props.Strike
import Verif.Props.React
import Verif.Lemmas.Lined
import Verif.Lemmas.Mindful
/-! # Property C64: no request is forgotten -/
namespace Verif.Props
open Verif Verif.Spec

variable {C : Cfg} {w : Mach} {args : Option EnvArgs} {t : ℚ} {s s' : Sim} {n : String}

/-- C64 in full: the requests that the simulation holds for a module stay in line, first in first out, until the module takes them up. -/
def C64_full : Prop :=
  ∀ (C : Cfg) (w : Mach) (args : Option EnvArgs) (t : ℚ) (s s' : Sim), (w.bufs.map Prod.fst).Nodup → Reachable C w args t s → Stepped.leads (s.step C) s' →
    ∀ n, InLine C s s' n s.startedList s'.startedList

/-! ## A model for which this fails -/

/-- The rule `==> ~g>`. -/
def exGlanceRule : CRule := ⟨⟨.ok [], .ok [(⟨'~', "g"⟩, .nothing)]⟩, 0, Option.none⟩

/-- A model that does not look for anything, but searches its surroundings when they change. -/
def exGlance : Mach :=
  { exMach [("_visuallocation", ["color", "screen_x", "screen_y", "value"]), ("_visual", ["cmd", "color", "screen_pos", "value"])]
      [("visual_location", exBuf .visualLocation), ("g", exBuf .goal)] with
    rules := [("wait", exGlanceRule)], ordered := ["wait"], env := some ⟨0, (320, 180), [], [], [], Option.none, Option.none⟩ }

/-- Whether the process of the module is idle. -/
def Sim.idleIs (s : Sim) (n : String) : Bool := match (alook n s.extra).bind s.points with
  | some (.extraIdle _) => true
  | _ => false

theorem idleIs_main {p pro : ℕ} (h : alook n s.extra = some p) (hp : s'.points p = some (.extraMain n pro)) (he : s'.extra = s.extra) : Sim.idleIs s' n = false := by
  unfold Sim.idleIs
  rw [he, h]
  show (match s'.points p with | some (.extraIdle _) => true | _ => false) = false
  rw [hp]

/-- When the first cycle of the rules is over, the simulation replaces its own list by that of the rules (simulation.py:231). The request
which the environment has just made (simulation.py:126) is lost. -/
theorem C64_refuted : ¬ C64_full := by
  intro h
  have hb : ((Stepped.state? (stepsOf exC 25 (Sim.init exGlance exLookArgs 0))).bind fun s => (Stepped.state? (s.step exC)).map fun s' =>
      (orders "visual_location" s.startedList, orders "visual_location" s'.startedList, Sim.idleIs s' "visual_location")) = some (1, 0, true) := by decide +kernel
  cases h1 : Stepped.state? (stepsOf exC 25 (Sim.init exGlance exLookArgs 0)) with
  | none => rw [h1] at hb; cases hb
  | some s =>
    rw [h1] at hb
    replace hb : (Stepped.state? (s.step exC)).map _ = _ := hb
    cases h2 : Stepped.state? (s.step exC) with
    | none => rw [h2] at hb; cases hb
    | some s' =>
      rw [h2] at hb
      obtain ⟨h3, h4⟩ := Prod.mk.inj (Option.some.inj hb)
      obtain ⟨h4, h5⟩ := Prod.mk.inj h4
      have hr : Reachable exC exGlance exLookArgs 0 s := stepsOf_ok .init (state?_some h1)
      have hl : Stepped.leads (s.step exC) s' := .inl (state?_some h2)
      have hw : (exGlance.bufs.map Prod.fst).Nodup := by decide
      have hf := lineStep_fits (lineStep_step (ready_reachable hw hr) (fine_reachable hr) (equipped_reachable hw hr) hl)
      rcases h exC exGlance exLookArgs 0 s s' hw hr hl "visual_location" with hi | ⟨r, _, p, pro, he, hp, _⟩
      · have := hi.length_le
        rw [← orders_requests, ← orders_requests, h3, h4] at this
        omega
      · rw [idleIs_main he hp hf.extra] at h5; cases h5

/-! ## What holds -/

theorem inLine_took {name : String} {p pro : ℕ} {l l' : List PItem} (hb : s.points pro = Option.none) (h : Took C name pro s s') (he : alook name s.extra = some p) (hp : s'.points p = some (.extraMain name pro))
    (hl : l = s.startedList) (hl' : l' = s'.startedList) (n : String) : InLine C s s' n l l' := by
  subst hl hl'
  by_cases hn : n = name
  · subst hn
    obtain ⟨r, h1, h2⟩ := h.req
    exact .inr ⟨r, h1, p, pro, he, hp, hb, h2⟩
  · left
    rw [h.others n hn]

/-- C64, partially: requests stay in line in each step, except when the first cycle of the rules is over and the simulation replaces its
own list by that of the rules. -/
theorem C64_partial (hw : (w.bufs.map Prod.fst).Nodup) (h : Reachable C w args t s) (hl : Stepped.leads (s.step C) s') (hs : s.started.isSome → s'.started.isSome) (n : String) :
    InLine C s s' n s.startedList s'.startedList := by
  have hr := ready_reachable hw h
  rcases lineStep_step hr (fine_reachable h) (equipped_reachable hw h) hl with h1 | ⟨name, p, pro, h1, h2, h3⟩
  · left
    unfold Sim.startedList
    cases ho : s.started with
    | none => rw [h1.shared ho]; exact h1.procs n
    | some l =>
      rcases h1.own l ho with h4 | ⟨l', h4, h5⟩
      · rw [ho, h4] at hs; cases hs rfl
      · rw [h4]; exact h5 n
  · exact inLine_took (hr.blank pro h1.new).2 h1 h2 h3 rfl rfl n

/-- C64 for the list of the rules: the requests made by rules stay in line in every step. -/
theorem C64_rules_partial (hw : (w.bufs.map Prod.fst).Nodup) (h : Reachable C w args t s) (hl : Stepped.leads (s.step C) s') (n : String) : InLine C s s' n s.w.procs s'.w.procs := by
  have hr := ready_reachable hw h
  rcases lineStep_step hr (fine_reachable h) (equipped_reachable hw h) hl with h1 | ⟨name, p, pro, h1, h2, h3⟩
  · exact .inl (h1.procs n)
  · cases ho : s.started with
    | none =>
      have ho' : s'.started = Option.none := by
        have := h1.own
        rw [ho] at this
        exact Option.not_isSome_iff_eq_none.1 (by rw [this]; simp)
      exact inLine_took (hr.blank pro h1.new).2 h1 h2 h3 (by unfold Sim.startedList; rw [ho]; rfl) (by unfold Sim.startedList; rw [ho']; rfl) n
    | some l =>
      left
      rw [h1.procs (by rw [ho]; rfl)]

/-- C64 for the whole way of a request made by a rule: it stays in line behind some of those that were before it, and in front of those
that were behind it, until the module takes it up. -/
theorem C64_waits_partial (hw : (w.bufs.map Prod.fst).Nodup) (h : Reachable C w args t s) (hg : GoesOn C s s') {l1 l2 : List (ℕ × Desc)} {r : ℕ × Desc} (hr : requestsFor n s.w.procs = l1 ++ r :: l2) :
    (∃ l l3, l <:+ l1 ∧ requestsFor n s'.w.procs = l ++ r :: l2 ++ l3) ∨ ∃ s1 s2, GoesOn C s s1 ∧ Stepped.leads (s1.step C) s2 ∧ GoesOn C s2 s' ∧ TakesUp C s1 s2 n r := by
  have hmore : ∀ {a b : Sim}, requestsFor n a.w.procs <+: requestsFor n b.w.procs → (∃ l l3, l <:+ l1 ∧ requestsFor n a.w.procs = l ++ r :: l2 ++ l3) →
      ∃ l l3, l <:+ l1 ∧ requestsFor n b.w.procs = l ++ r :: l2 ++ l3 := fun {a b} ⟨k, hk⟩ ⟨l, l3, hl, he⟩ => ⟨l, l3 ++ k, hl, by rw [← hk, he]; simp⟩
  induction hg with
  | refl => exact .inl ⟨l1, [], List.suffix_rfl, by rw [hr]; simp⟩
  | @step s1 s2 hg hl ih =>
    rcases ih with ih | ⟨a, b, ha, hab, hb, ht⟩
    · have hr1 := reachable_goesOn h hg
      rcases C64_rules_partial hw hr1 hl n with h1 | ⟨r', h1, h2⟩
      · exact .inl (hmore h1 ih)
      · obtain ⟨l, l3, h3, h4⟩ := ih
        rw [h1] at h4
        rcases l with _ | ⟨y, l⟩
        · have h4 : r' :: requestsFor n s2.w.procs = r :: (l2 ++ l3) := h4
          rw [(List.cons.inj h4).1] at h2
          exact .inr ⟨s1, s2, hg, hl, .refl _, h2⟩
        · have h4 : r' :: requestsFor n s2.w.procs = y :: (l ++ r :: l2 ++ l3) := h4
          exact .inl ⟨l, l3, (List.suffix_cons y l).trans h3, (List.cons.inj h4).2⟩
    · exact .inr ⟨a, b, ha, hab, hb.step hl, ht⟩
  | @stop s1 q hg ih =>
    rcases ih with ih | ⟨a, b, ha, hab, hb, ht⟩
    · exact .inl (hmore ((lines_setStop s1 q).procs n) ih)
    · exact .inr ⟨a, b, ha, hab, hb.stop q, ht⟩
  | @compile s1 hg ih =>
    rcases ih with ih | ⟨a, b, ha, hab, hb, ht⟩
    · exact .inl (hmore ((lines_compile (C := C) s1).procs n) ih)
    · exact .inr ⟨a, b, ha, hab, hb.compile, ht⟩

/-- C64 for idle modules: when the clock is about to go on, no request waits for a module that has nothing to do. (The model has not been
simulated before, and no exception has been raised.) -/
theorem C64_idle_partial (hw : (w.bufs.map Prod.fst).Nodup) (hf : ∀ n, requestsFor n w.procs = []) (h : Unraised C w args t s) (hq : ∀ en ∈ s.queue, s.now < en.time) {p : ℕ} (hp : s.points p = some (.extraIdle n)) :
    requestsFor n s.startedList = [] := by
  have := unheard hw (fun n => by rw [orders_requests, hf n]; rfl) h hq hp
  rw [orders_requests] at this
  exact List.eq_nil_of_length_eq_zero this

/-! ## Examples -/

/-- A request of the environment is taken up. -/
theorem ex_takesUp : ∃ s s', Reachable exC exGlance exLookArgs 0 s ∧ Stepped.leads (s.step exC) s' ∧ (s.started.isSome → s'.started.isSome) ∧ orders "visual_location" s.startedList = 1 ∧ orders "visual_location" s'.startedList = 0 := by
  have hb : ((Stepped.state? (stepsOf exC 13 (Sim.init exGlance exLookArgs 0))).bind fun s => (Stepped.state? (s.step exC)).map fun s' =>
      (orders "visual_location" s.startedList, orders "visual_location" s'.startedList, s'.started.isSome)) = some (1, 0, true) := by decide +kernel
  cases h1 : Stepped.state? (stepsOf exC 13 (Sim.init exGlance exLookArgs 0)) with
  | none => rw [h1] at hb; cases hb
  | some s =>
    rw [h1] at hb
    replace hb : (Stepped.state? (s.step exC)).map _ = _ := hb
    cases h2 : Stepped.state? (s.step exC) with
    | none => rw [h2] at hb; cases hb
    | some s' =>
      rw [h2] at hb
      obtain ⟨h3, h4⟩ := Prod.mk.inj (Option.some.inj hb)
      obtain ⟨h4, h5⟩ := Prod.mk.inj h4
      exact ⟨s, s', stepsOf_ok .init (state?_some h1), .inl (state?_some h2), fun _ => h5, h3, h4⟩

example : ∃ s s' r, Reachable exC exGlance exLookArgs 0 s ∧ requestsFor "visual_location" s.startedList = [r] ∧ TakesUp exC s s' "visual_location" r := by
  obtain ⟨s, s', h1, h2, h3, h4, h5⟩ := ex_takesUp
  rw [orders_requests] at h4 h5
  rcases C64_partial (by decide) h1 h2 h3 "visual_location" with h | ⟨r, h, ht⟩
  · have := h.length_le; omega
  · rw [List.eq_nil_of_length_eq_zero h5] at h
    exact ⟨s, s', r, h1, h, ht⟩

/-- A request of a rule waits, and later there is none. -/
theorem ex_ruleWaits : ∃ s s', Reachable exC exAsking Option.none 0 s ∧ GoesOn exC s s' ∧ orders "g" s.w.procs = 1 ∧ orders "g" s'.w.procs = 0 := by
  have hb : ((Stepped.state? (stepsOf exC 7 (Sim.init exAsking Option.none 0))).bind fun s => (Stepped.state? (stepsOf exC 10 s)).map fun s' => (orders "g" s.w.procs, orders "g" s'.w.procs)) = some (1, 0) := by decide +kernel
  cases h1 : Stepped.state? (stepsOf exC 7 (Sim.init exAsking Option.none 0)) with
  | none => rw [h1] at hb; cases hb
  | some s =>
    rw [h1] at hb
    replace hb : (Stepped.state? (stepsOf exC 10 s)).map _ = _ := hb
    cases h2 : Stepped.state? (stepsOf exC 10 s) with
    | none => rw [h2] at hb; cases hb
    | some s' =>
      rw [h2] at hb
      obtain ⟨h3, h4⟩ := Prod.mk.inj (Option.some.inj hb)
      exact ⟨s, s', stepsOf_ok .init (state?_some h1), stepsOf_goesOn (.refl _) (state?_some h2), h3, h4⟩

example : ∃ s s' r s1 s2, Reachable exC exAsking Option.none 0 s ∧ requestsFor "g" s.w.procs = [r] ∧ GoesOn exC s s1 ∧ GoesOn exC s2 s' ∧ TakesUp exC s1 s2 "g" r := by
  obtain ⟨s, s', h1, h2, h3, h4⟩ := ex_ruleWaits
  rw [orders_requests] at h3 h4
  obtain ⟨r, hr⟩ := List.length_eq_one_iff.1 h3
  rcases C64_waits_partial (l1 := []) (l2 := []) (by decide) h1 h2 hr with ⟨l, l3, _, h⟩ | ⟨s1, s2, h5, _, h6, h7⟩
  · rw [h] at h4; simp at h4
  · exact ⟨s, s', r, s1, s2, h1, hr, h5, h6, h7⟩

/-- After five further steps the module is idle again, and the clock is about to go on. -/
theorem ex_idleAgain : ∃ s p, Unraised exC exGlance exLookArgs 0 s ∧ (∀ en ∈ s.queue, s.now < en.time) ∧ s.queue ≠ [] ∧ s.points p = some (.extraIdle "visual_location") := by
  have hb : ((Stepped.state? (stepsOf exC 18 (Sim.init exGlance exLookArgs 0))).map fun s => (s.queue.all (fun en => decide (s.now < en.time)), s.queue.isEmpty,
      match s.points 4 with | some (.extraIdle n) => n == "visual_location" | _ => false)) = some (true, false, true) := by decide +kernel
  cases h1 : Stepped.state? (stepsOf exC 18 (Sim.init exGlance exLookArgs 0)) with
  | none => rw [h1] at hb; cases hb
  | some s =>
    rw [h1] at hb
    obtain ⟨h2, h3⟩ := Prod.mk.inj (Option.some.inj hb)
    obtain ⟨h3, h4⟩ := Prod.mk.inj h3
    refine ⟨s, 4, stepsOf_unraised .init (state?_some h1), fun en hen => of_decide_eq_true (List.all_eq_true.1 h2 en hen), (fun he => by rw [he] at h3; cases h3), ?_⟩
    split at h4
    · rename_i n hp; rw [hp, eq_of_beq h4]
    · cases h4

example : ∃ s p, Unraised exC exGlance exLookArgs 0 s ∧ s.points p = some (.extraIdle "visual_location") ∧ requestsFor "visual_location" s.startedList = [] := by
  obtain ⟨s, p, h1, h2, _, h3⟩ := ex_idleAgain
  exact ⟨s, p, h1, h3, C64_idle_partial (by decide) (fun _ => rfl) h1 h2 h3⟩

end Verif.Props
