import Verif.Lemmas.SimCode
/-! # The order of the reports of the procedural module, and their times -/
namespace Verif
open Verif.Spec

/-- Where a cycle is, and when it began. -/
inductive Stage where
  | idle
  | conf (t : ℚ)
  | sel (n : String) (t : ℚ)
  | comp (n : String) (t : ℚ)

/-- The stage after a report; `rf` is the time from the selection to the firing of a rule. -/
def Stage.next (rf : ℚ) : Stage → ℚ → Act → Option Stage
  | .idle, u, .conflict => if round4 u = u then some (.conf u) else Option.none
  | .conf t, u, .noRule => if u = t then some .idle else Option.none
  | .conf t, u, .selected n => if u = t then some (.sel n t) else Option.none
  | .sel n t, u, .stopped m => if n = m ∧ u = round4 (t + rf) then some .idle else Option.none
  | .sel n t, u, .compiled _ _ => if u = round4 (t + rf) then some (.comp n t) else Option.none
  | .sel n t, u, .fired m => if n = m ∧ u = round4 (t + rf) then some .idle else Option.none
  | .comp n t, u, .fired m => if n = m ∧ u = round4 (t + rf) then some .idle else Option.none
  | st, _, a => if Cyclic a then Option.none else some st

/-- When the process of a cycle goes on. -/
def Stage.due (rf : ℚ) : Stage → Option ℚ
  | .idle => Option.none
  | .conf t => some t
  | .sel _ t => some (round4 (t + rf))
  | .comp _ t => some (round4 (t + rf))

variable {rf : ℚ}

theorem stage_next_other (st : Stage) (u : ℚ) {a : Act} (h : ¬ Cyclic a) : st.next rf u a = some st := by
  cases st <;> cases a <;> first | exact absurd trivial h | rfl

/-- The stage after a list of reports. -/
def stageOf (rf : ℚ) (l : List (ℚ × Act)) : Option Stage := l.foldlM (fun st x => st.next rf x.1 x.2) .idle

theorem stageOf_append (l : List (ℚ × Act)) (a : ℚ × Act) : stageOf rf (l ++ [a]) = (stageOf rf l).bind (·.next rf a.1 a.2) := by
  unfold stageOf
  rw [List.foldlM_append]
  simp [List.foldlM]

/-- What has been reported in the stage. -/
def Stage.prefix (rf : ℚ) : Stage → List (ℚ × Act) → Prop
  | .idle, l => l = []
  | .conf t, l => round4 t = t ∧ l = [(t, .conflict)]
  | .sel n t, l => round4 t = t ∧ l = [(t, .conflict), (t, .selected n)]
  | .comp n t, l => round4 t = t ∧ ∃ re m, l = [(t, .conflict), (t, .selected n), (round4 (t + rf), .compiled re m)]

/-- The times of selection and firing. -/
def FiresAt (rf t u : ℚ) : Prop := round4 t = t ∧ u = round4 (t + rf)

theorem stage_prefix (l : List (ℚ × Act)) : (∀ a ∈ l, Cyclic a.2) → ∀ st, stageOf rf l = some st →
    ∃ (done : List (List (ℚ × Act))) (rest : List (ℚ × Act)), l = done.flatten ++ rest ∧ (∀ x ∈ done, TimedCycle (FiresAt rf) x) ∧ st.prefix rf rest := by
  induction l using List.reverseRecOn with
  | nil =>
    intro _ st h
    obtain rfl : Stage.idle = st := by simpa [stageOf] using h
    exact ⟨[], [], rfl, by simp, rfl⟩
  | append_singleton l x ih =>
    intro hc st h
    rw [stageOf_append] at h
    obtain ⟨st1, h1, h2⟩ := Option.bind_eq_some_iff.1 h
    obtain ⟨done, rest, rfl, hd, hr⟩ := ih (fun b hb => hc b (List.mem_append_left _ hb)) st1 h1
    have ha := hc x (by simp)
    have more : ∀ c, TimedCycle (FiresAt rf) c → rest ++ [x] = c → st = .idle → ∃ (done' : List (List (ℚ × Act))) (rest' : List (ℚ × Act)),
        done.flatten ++ rest ++ [x] = done'.flatten ++ rest' ∧ (∀ x ∈ done', TimedCycle (FiresAt rf) x) ∧ st.prefix rf rest' := by
      rintro c hcc rfl rfl
      refine ⟨done ++ [rest ++ [x]], [], by simp, fun y hx => ?_, rfl⟩
      rcases List.mem_append.1 hx with hx | hx
      · exact hd y hx
      · rw [List.mem_singleton] at hx; subst hx; exact hcc
    obtain ⟨u, a⟩ := x
    cases st1 with
    | idle =>
      cases a <;> simp [Stage.next, Cyclic] at h2 ha
      obtain ⟨hu, rfl⟩ := h2; obtain rfl : rest = [] := hr
      exact ⟨done, [(u, .conflict)], by simp, hd, hu, rfl⟩
    | conf t =>
      obtain ⟨hu, rfl⟩ := hr
      cases a <;> simp [Stage.next, Cyclic] at h2 ha
      · obtain ⟨rfl, rfl⟩ := h2; exact ⟨done, _, List.append_assoc _ _ _, hd, hu, rfl⟩
      · obtain ⟨rfl, rfl⟩ := h2; exact more _ (.nothing _) rfl rfl
    | sel n t =>
      obtain ⟨hu, rfl⟩ := hr
      cases a <;> simp [Stage.next, Cyclic] at h2 ha
      · obtain ⟨⟨rfl, rfl⟩, rfl⟩ := h2; exact more _ (.stopped n ⟨hu, rfl⟩) rfl rfl
      · obtain ⟨rfl, rfl⟩ := h2; exact ⟨done, _, List.append_assoc _ _ _, hd, hu, _, _, rfl⟩
      · obtain ⟨⟨rfl, rfl⟩, rfl⟩ := h2; exact more _ (.fired n ⟨hu, rfl⟩) rfl rfl
    | comp n t =>
      obtain ⟨hu, re, m, rfl⟩ := hr
      cases a <;> simp [Stage.next, Cyclic] at h2 ha
      obtain ⟨⟨rfl, rfl⟩, rfl⟩ := h2; exact more _ (.compiled n re m ⟨hu, rfl⟩) rfl rfl

theorem cycles_of_stage {l : List (ℚ × Act)} (hc : ∀ a ∈ l, Cyclic a.2) {st : Stage} (h : stageOf rf l = some st) : TimedCycles (FiresAt rf) l := by
  obtain ⟨done, rest, rfl, hd, hr⟩ := stage_prefix l hc st h
  cases st with
  | idle => obtain rfl : rest = [] := hr; exact ⟨done, [], _, rfl, hd, .nothing 0, by simp, by simp⟩
  | conf t => obtain ⟨hu, rfl⟩ := hr; exact ⟨done, _, _, rfl, hd, .nothing t, ⟨_, rfl⟩, by simp⟩
  | sel n t => obtain ⟨hu, rfl⟩ := hr; exact ⟨done, _, _, rfl, hd, .fired (t := t) n ⟨hu, rfl⟩, ⟨_, rfl⟩, by simp⟩
  | comp n t => obtain ⟨hu, re, m, rfl⟩ := hr; exact ⟨done, _, _, rfl, hd, .compiled (t := t) n re m ⟨hu, rfl⟩, ⟨_, rfl⟩, by simp⟩

theorem timedCycle_mono {R S : ℚ → ℚ → Prop} (h : ∀ t u, R t u → S t u) {l : List (ℚ × Act)} (hl : TimedCycle R l) : TimedCycle S l := by
  cases hl with
  | nothing t => exact .nothing t
  | fired n hr => exact .fired n (h _ _ hr)
  | compiled n re m hr => exact .compiled n re m (h _ _ hr)
  | stopped n hr => exact .stopped n (h _ _ hr)

theorem timedCycles_mono {R S : ℚ → ℚ → Prop} (h : ∀ t u, R t u → S t u) {l : List (ℚ × Act)} (hl : TimedCycles R l) : TimedCycles S l := by
  obtain ⟨done, rest, c, h1, h2, h3, h4, h5⟩ := hl
  exact ⟨done, rest, c, h1, fun x hx => timedCycle_mono h (h2 x hx), timedCycle_mono h h3, h4, h5⟩

/-- Without the times. -/
theorem cycles_of_timed {R : ℚ → ℚ → Prop} {l : List (ℚ × Act)} (hl : TimedCycles R l) : Cycles (l.map Prod.snd) := by
  have hx : ∀ x, TimedCycle R x → RuleCycle (x.map Prod.snd) := fun x h => by
    cases h with
    | nothing t => exact .nothing
    | fired n _ => exact .fired n
    | compiled n re m _ => exact .compiled n re m
    | stopped n _ => exact .stopped n
  obtain ⟨done, rest, c, rfl, h2, h3, h4, h5⟩ := hl
  refine ⟨done.map (List.map Prod.snd), rest.map Prod.snd, c.map Prod.snd, by simp [List.map_flatten], fun x h => ?_, hx c h3, h4.map _, fun he => h5 (h4.eq_of_length ?_)⟩
  · obtain ⟨y, hy, rfl⟩ := List.mem_map.1 h
    exact hx y (h2 y hy)
  · simpa using congrArg List.length he

theorem timedReports_map (l : List (ℚ × Ev)) : (timedReports l).map Prod.snd = ruleReports l := by
  unfold timedReports ruleReports
  rw [List.filter_map, List.filter_map, List.map_map]
  rfl

/-! ## The generator -/

/-- The reports of a generator go through the stages, from the stage `st` to one that satisfies `P`. The list of processes is passed on
between cycles only. -/
def Stages (rf : ℚ) {A : Type} (P : Stage → A → Prop) : Stage → Out Mach YV A → Prop
  | st, .yield _ (.ev e) k => ∃ st', (st.next rf e.time e.act = some st' ∧ ∀ t ∈ st.due rf, e.time = t) ∧ ∀ w, Stages rf P st' (k w)
  | st, .yield _ .procs k => st = .idle ∧ ∀ w, Stages rf P st (k w)
  | st, .yield _ _ k => ∀ w, Stages rf P st (k w)
  | st, .ret _ a => P st a
  | _, .raise _ _ => True

variable {A B : Type}

theorem stages_bind {f : A → GenM B} {P : Stage → B → Prop} {o : Out Mach YV A} : ∀ {st}, Stages rf (fun st a => ∀ w, Stages rf P st (f a w)) st o → Stages rf P st (o.bind f) := by
  induction o with
  | yield w y k ih =>
    intro st h
    cases y with
    | ev e => obtain ⟨st', h1, h2⟩ := h; exact ⟨st', h1, fun w' => ih w' (h2 w')⟩
    | procs => exact ⟨h.1, fun w' => ih w' (h.2 w')⟩
    | cont d => exact fun w' => ih w' (h w')
    | nothing => exact fun w' => ih w' (h w')
  | ret w a => intro st h; exact h w
  | raise w e => intro st _; trivial

theorem stages_mono {P Q : Stage → A → Prop} (hq : ∀ st a, P st a → Q st a) {o : Out Mach YV A} : ∀ {st}, Stages rf P st o → Stages rf Q st o := by
  induction o with
  | yield w y k ih =>
    intro st h
    cases y with
    | ev e => obtain ⟨st', h1, h2⟩ := h; exact ⟨st', h1, fun w' => ih w' (h2 w')⟩
    | procs => exact ⟨h.1, fun w' => ih w' (h.2 w')⟩
    | cont d => exact fun w' => ih w' (h w')
    | nothing => exact fun w' => ih w' (h w')
  | ret w a => intro st h; exact hq _ _ h
  | raise w e => intro st _; trivial

theorem stages_module {o : Out Mach YV A} (h : o.Yields ModuleY) : Stages rf (fun st' _ => st' = .idle) .idle o := by
  induction o with
  | yield w y k ih =>
    cases y with
    | ev e => exact ⟨.idle, ⟨stage_next_other .idle _ h.1.2, by simp [Stage.due]⟩, fun w' => ih w' (h.2 w')⟩
    | procs => exact h.1.elim
    | cont d => exact fun w' => ih w' (h.2 w')
    | nothing => exact fun w' => ih w' (h.2 w')
  | ret w a => rfl
  | raise w e => trivial

theorem stages_silent {o : Out Mach YV A} {st : Stage} (h : o.Yields fun _ => False) : Stages rf (fun st' _ => st' = st) st o := by
  cases o with
  | yield w y k => exact h.1.elim
  | ret w a => rfl
  | raise w e => trivial

theorem stages_quiet {m : GenM A} {f : A → GenM B} {P : Stage → B → Prop} {st : Stage} (hm : Emits (fun _ => False) m) (hf : ∀ a w, Stages rf P st (f a w)) (w : Mach) :
    Stages rf P st ((m >>= f) w) :=
  stages_bind (stages_mono (fun st' a h w' => by subst h; exact hf a w') (stages_silent (hm w)))

theorem stages_event {t : ℚ} {n : String} {a : Act} {f : Unit → GenM B} {P : Stage → B → Prop} {st st' : Stage} (h : st.next rf (round4 t) a = some st')
    (hd : ∀ u ∈ st.due rf, round4 t = u) (hf : ∀ w, Stages rf P st' (f () w)) (w : Mach) : Stages rf P st ((GenM.event t n a >>= f) w) := ⟨st', ⟨h, hd⟩, fun w' => hf w'⟩

theorem stages_fire (C : Cfg) (n : String) (rule : CRule) (t : ℚ) (w : Mach) : Stages rf (fun st _ => st = .idle) (.sel n t) (genFire C n rule (t + rf) w) := by
  have hrest : ∀ st, (st = .sel n t ∨ st = .comp n t) → ∀ w, Stages rf (fun st _ => st = .idle) st
      ((do .set (fun w => { w with curSlots := w.noSlots }); .event (t + rf) procName (.fired n); genRhs C n rule (t + rf) : GenM Unit) w) := by
    intro st hst w
    refine stages_quiet emits_set (fun _ w => ?_) w
    have : st.next rf (round4 (t + rf)) (.fired n) = some .idle := by rcases hst with rfl | rfl <;> simp [Stage.next]
    exact stages_event this (by rcases hst with rfl | rfl <;> simp [Stage.due]) (fun w => stages_mono (fun _ _ h => h) (stages_module (moduleY_rhs C n rule _ w))) w
  unfold genFire
  refine stages_quiet emits_set (fun _ w => ?_) w
  refine stages_quiet emits_act (fun comp w => ?_) w
  refine stages_quiet emits_set (fun _ w => ?_) w
  rcases comp with _ | ⟨m, re⟩
  · exact hrest _ (.inl rfl) w
  · exact stages_event (st' := .comp n t) (by simp [Stage.next]) (by simp [Stage.due]) (fun w => hrest _ (.inr rfl) w) w

theorem stages_selected (C : Cfg) (n : String) (rule : CRule) {t : ℚ} (ht : OnGrid t) (w : Mach) :
    Stages C.ruleFiring (fun st _ => st = .idle) (.conf t) (genSelected C n rule t w) := by
  have hr := round4_onGrid ht
  unfold genSelected
  refine stages_quiet emits_set (fun _ w => ?_) w
  refine stages_event (st' := .sel n t) (by simp [Stage.next, hr]) (by simp [Stage.due, hr]) (fun w => ?_) w
  refine stages_event (st' := .sel n t) rfl (by simp [Stage.due]) (fun w => ?_) w
  unfold genTest
  refine stages_quiet emits_lift (fun lhs w => ?_) w
  refine stages_quiet emits_act (fun m w => ?_) w
  cases m with
  | none => exact ⟨.idle, ⟨by simp [Stage.next], by simp [Stage.due]⟩, fun w => rfl⟩
  | some bv => exact stages_quiet emits_set (fun _ w => stages_fire C n rule _ w) w

/-- One run of the procedural process is one cycle, and it passes on the list of processes at its end. -/
theorem stages_procedural (C : Cfg) {t : ℚ} (ht : OnGrid t) (w : Mach) : Stages C.ruleFiring (fun st _ => st = .idle) .idle (genProcedural C t w) := by
  have hr := round4_onGrid ht
  have hend : ∀ w, Stages C.ruleFiring (fun st _ => st = .idle) .idle ((GenM.yield .procs : GenM Unit) w) := fun w => ⟨rfl, fun _ => rfl⟩
  unfold genProcedural
  refine stages_quiet emits_set (fun _ w => ?_) w
  refine stages_event (st' := .conf t) (by simp [Stage.next, hr]) (by simp [Stage.due]) (fun w => ?_) w
  refine stages_quiet emits_act (fun sel w => ?_) w
  rcases sel with _ | ⟨n, rule⟩
  · refine stages_quiet emits_set (fun _ w => ?_) w
    exact stages_event (st' := .idle) (by simp [Stage.next, hr]) (by simp [Stage.due, hr]) (fun w => hend w) w
  · exact stages_bind (stages_mono (fun st _ h w' => by subst h; exact hend w') (stages_selected C n rule ht w))

end Verif
