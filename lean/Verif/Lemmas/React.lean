import Verif.Lemmas.Outcome
import Verif.Lemmas.SimReports
import Verif.Lemmas.Confined
/-! # The process of the rules is awake whenever modules have reported something -/
namespace Verif
open Verif.Spec

variable {A B : Type} {rf : ℚ}

/-! ## Generators -/

/-- The word PROCEDURAL is in the list of processes. -/
def Bears (w : Mach) : Prop := .procedural ∈ w.procs

/-- It stays there. -/
def Keep (w w' : Mach) : Prop := Bears w → Bears w'

theorem keep_refl (w : Mach) : Keep w w := id
theorem keep_trans (a b c : Mach) (h1 : Keep a b) (h2 : Keep b c) : Keep a c := fun h => h2 (h1 h)
theorem keep_procs {w w' : Mach} (h : w'.procs = w.procs) : Keep w w' := fun hb => by unfold Bears at *; rwa [h]

/-- The list of processes stays as it is. -/
def Leaves (w w' : Mach) : Prop := w'.procs = w.procs

theorem leaves_run (C : Cfg) (d : Desc) (w : Mach) : (d.run C w).Moves Leaves w := moves_mono (fun _ _ h => h.procs) ((confined_run C d).moves w)

theorem leaves_env (upper : String → String) (a : StimArg) (b : TrigArg) (c : EnvTimes) (t : ℚ) (w : Mach) :
    (envProcess (fun env (w : Mach) => { w with env := some env }) envOf upper a b c t w).Moves Leaves w := by
  have hr : ∀ w : Mach, Leaves w w := fun _ => rfl
  have h : ∀ l i time w, (envLoop (fun env (w : Mach) => { w with env := some env }) envOf i time l w).Moves Leaves w := by
    intro l
    induction l with
    | nil => intro i time w; exact hr w
    | cons s r ih =>
      intro i time w
      simp only [envLoop]
      split
      · exact hr w
      · split
        · exact hr w
        · exact ⟨rfl, fun w' => ih _ _ w'⟩
  unfold envProcess
  dsimp only
  split
  · exact hr w
  · exact ⟨rfl, fun w' => h _ _ _ w'⟩

/-- How far a cycle is: it begins, rules are tried, none was found, one was found at some time, it is due, its actions are performed. -/
inductive Phase where
  | start (t : ℚ)
  | conf (t : ℚ)
  | none
  | sel (t : ℚ)
  | late (u : ℚ)
  | acts

/-- What is announced in a phase, and the phase after that. -/
def Phase.next (rf : ℚ) : Phase → Ev → Phase → Prop
  | .start t, e, ph => e.time = t ∧ e.act = .conflict ∧ ph = .conf t
  | .conf t, e, ph => e.time = t ∧ ((e.act = .noRule ∧ ph = .none) ∨ ((∃ n, e.act = .selected n) ∧ ph = .sel t))
  | .none, _, _ => False
  | .sel t, e, ph => e.time = round4 (t + rf) ∧ ¬ Cyclic e.act ∧ ph = .late (round4 (t + rf))
  | .late u, e, ph => e.time = u ∧ (((∃ n, e.act = .fired n) ∧ ph = .acts) ∨ ph = .late u)
  | .acts, e, ph => ¬ Cyclic e.act ∧ ph = .acts

/-- In this phase nothing more is to be done. -/
def Phase.over : Phase → Prop
  | .none => True
  | _ => False

/-- In this phase the list of processes may be passed on. -/
def Phase.last : Phase → Prop
  | .late _ | .acts => True
  | _ => False

/-- A generator goes through the phases. The word PROCEDURAL is in the list of processes as long as no other process takes it away, unless no
rule was found. -/
def Phases (rf : ℚ) {A : Type} (P : Phase → A → Mach → Prop) : Phase → Out Mach YV A → Prop
  | ph, .yield w (.ev e) k => ∃ ph', ph.next rf e ph' ∧ (ph'.over ∨ Bears w) ∧ ∀ w', (ph'.over ∨ Bears w') → Phases rf P ph' (k w')
  | ph, .yield w .procs _ => ph.over ∨ (ph.last ∧ Bears w)
  | _, .yield _ _ _ => True
  | ph, .ret w a => P ph a w
  | _, .raise _ _ => True

theorem phases_bind {f : A → GenM B} {P : Phase → B → Mach → Prop} {o : Out Mach YV A} : ∀ {ph}, Phases rf (fun ph a w => Phases rf P ph (f a w)) ph o → Phases rf P ph (o.bind f) := by
  induction o with
  | yield w y k ih =>
    intro ph h
    cases y with
    | ev e => obtain ⟨ph', h1, h2, h3⟩ := h; exact ⟨ph', h1, h2, fun w' hw => ih w' (h3 w' hw)⟩
    | procs => exact h
    | cont d => trivial
    | nothing => trivial
  | ret w a => intro ph h; exact h
  | raise w e => intro ph _; trivial

theorem phases_acts {P : Phase → A → Mach → Prop} {o : Out Mach YV A} : ∀ {w0 : Mach}, o.Yields ModuleY → o.Moves Keep w0 → Bears w0 → (∀ a w, Bears w → P .acts a w) → Phases rf P .acts o := by
  induction o with
  | yield w y k ih =>
    intro w0 hy hm hb hp
    cases y with
    | ev e => exact ⟨.acts, ⟨hy.1.2, rfl⟩, .inr (hm.1 hb), fun w' hw => ih w' (hy.2 w') (hm.2 w') (hw.resolve_left id) hp⟩
    | procs => exact hy.1.elim
    | cont d => trivial
    | nothing => trivial
  | ret w a => intro w0 _ hm hb hp; exact hp a w (hm hb)
  | raise w e => intros; trivial

/-- Code without effects outside. -/
theorem phases_quiet {m : GenM A} {f : A → GenM B} {P : Phase → B → Mach → Prop} {ph : Phase} {w : Mach} (hm : Emits (fun _ => False) m) (hk : (m w).Moves Keep w) (hb : Bears w)
    (hf : ∀ a w, Bears w → Phases rf P ph (f a w)) : Phases rf P ph ((m >>= f) w) := by
  have hy := hm w
  show Phases rf P ph ((m w).bind f)
  cases ho : m w with
  | yield w' y k => rw [ho] at hy; exact hy.1.elim
  | ret w' a => rw [ho] at hk; exact hf a w' (hk hb)
  | raise w' e => trivial

theorem phases_set {g : Mach → Mach} {f : Unit → GenM B} {P : Phase → B → Mach → Prop} {ph : Phase} {w : Mach} (hk : (g w).procs = w.procs) (hb : Bears w)
    (hf : ∀ w, Bears w → Phases rf P ph (f () w)) : Phases rf P ph ((GenM.set g >>= f) w) := phases_quiet emits_set (keep_procs hk) hb fun _ w h => hf w h

theorem phases_act {g : Mach → Mach × Except PyErr A} {f : A → GenM B} {P : Phase → B → Mach → Prop} {ph : Phase} {w : Mach} (hk : ∀ w, (g w).1.procs = w.procs) (hb : Bears w)
    (hf : ∀ a w, Bears w → Phases rf P ph (f a w)) : Phases rf P ph ((GenM.act g >>= f) w) := phases_quiet emits_act (moves_act (keep_procs (hk w))) hb hf

theorem phases_event {t : ℚ} {n : String} {a : Act} {f : Unit → GenM B} {P : Phase → B → Mach → Prop} {ph ph' : Phase} {w : Mach} (h : ph.next rf ⟨round4 t, n, a⟩ ph') (hb : Bears w)
    (hf : ∀ w, (ph'.over ∨ Bears w) → Phases rf P ph' (f () w)) : Phases rf P ph ((GenM.event t n a >>= f) w) := ⟨ph', h, .inr hb, fun w' hw => hf w' hw⟩

theorem keep_queue (w : Mach) (n : String) (d : Desc) : Keep w (w.queue n d) := fun h => List.mem_append_left _ h

theorem keep_harvest (t : ℚ) : ∀ l w, Keep w (harvestAll t l w)
  | [], w => keep_refl w
  | n :: r, w => by
    unfold harvestAll
    refine keep_trans _ _ _ ?_ (keep_harvest t r _)
    split
    · exact keep_queue w n _
    · exact keep_refl w

theorem keep_updateLoop (C : Cfg) (t : ℚ) : ∀ l temp w, (updateLoop C t l temp w).Moves Keep w
  | [], temp, w => keep_refl w
  | (k, v) :: r, temp, w => by
    unfold updateLoop
    refine moves_bind keep_trans (moves_act ?_) fun _ w => ?_
    · split <;> exact keep_refl _
    refine moves_bind keep_trans (moves_get keep_refl _ w) fun bv w => ?_
    refine moves_bind keep_trans (moves_set (keep_procs (confined_setState (n := k.name)).procs)) fun _ w => ?_
    have hrest := fun w => keep_updateLoop C t r (temp.popVar k.name) w
    dsimp only
    split
    · exact moves_bind keep_trans (moves_set (keep_queue w _ _)) fun _ w => hrest w
    · exact moves_bind keep_trans (moves_mono (fun _ _ h => keep_procs h.procs) ((confined_immediate C k v bv t).moves w)) fun _ w => hrest w

theorem keep_rhs (C : Cfg) (n : String) (rule : CRule) (t : ℚ) (w : Mach) : (genRhs C n rule t w).Moves Keep w := by
  unfold genRhs
  refine moves_bind keep_trans (moves_lift keep_refl _ w) fun rhs w => ?_
  refine moves_bind keep_trans ?_ fun _ w => moves_set (keep_procs ?_)
  · unfold genUpdate
    refine moves_bind keep_trans (moves_get keep_refl _ w) fun temp w => ?_
    refine moves_bind keep_trans (moves_lift keep_refl _ w) fun sorted w => ?_
    refine moves_bind keep_trans (keep_updateLoop C t _ _ w) fun left w => moves_set ?_
    split
    · exact keep_harvest t _ w
    · exact keep_refl w
  · split
    · split <;> rfl
    · rfl

theorem phases_fire (C : Cfg) (n : String) (rule : CRule) (t : ℚ) {P : Phase → Unit → Mach → Prop} (hp : ∀ ph w, ph.last → Bears w → P ph () w) {w : Mach} (hb : Bears w) :
    Phases rf P (.late (round4 (t + rf))) (genFire C n rule (t + rf) w) := by
  have hrest : ∀ w, Bears w → Phases rf P (.late (round4 (t + rf)))
      ((do .set (fun w => { w with curSlots := w.noSlots }); .event (t + rf) procName (.fired n); genRhs C n rule (t + rf) : GenM Unit) w) := fun w hb => by
    refine phases_set rfl hb fun w hb => phases_event (ph' := .acts) ⟨rfl, .inl ⟨⟨n, rfl⟩, rfl⟩⟩ hb fun w hw => ?_
    exact phases_acts (moduleY_rhs C n rule _ w) (keep_rhs C n rule _ w) (hw.resolve_left id) fun _ w h => hp _ w trivial h
  unfold genFire
  refine phases_set ?_ hb fun w hb => ?_
  · unfold rewardStep
    split
    · split <;> rfl
    · rfl
  refine phases_act (fun w => ?_) hb fun comp w hb => ?_
  · unfold compileIn
    split
    · dsimp only
      split <;> rfl
    · rfl
  refine phases_set rfl hb fun w hb => ?_
  rcases comp with _ | ⟨m, re⟩
  · exact hrest w hb
  · exact phases_event (ph' := .late (round4 (t + rf))) ⟨rfl, .inr rfl⟩ hb fun w hw => hrest w (hw.resolve_left id)

theorem phases_selected (C : Cfg) (n : String) (rule : CRule) {t : ℚ} (ht : OnGrid t) {P : Phase → Unit → Mach → Prop} (hp : ∀ ph w, ph.last → Bears w → P ph () w) {w : Mach} (hb : Bears w) :
    Phases C.ruleFiring P (.conf t) (genSelected C n rule t w) := by
  unfold genSelected
  refine phases_set rfl hb fun w hb => ?_
  refine phases_event (ph' := .sel t) ⟨round4_onGrid ht, .inr ⟨⟨n, rfl⟩, rfl⟩⟩ hb fun w hw => ?_
  refine phases_event (ph' := .late (round4 (t + C.ruleFiring))) ⟨rfl, id, rfl⟩ (hw.resolve_left id) fun w hw => ?_
  unfold genTest
  refine phases_quiet emits_lift (moves_lift keep_refl _ w) (hw.resolve_left id) fun lhs w hb => ?_
  refine phases_act (fun w => rfl) hb fun m w hb => ?_
  cases m with
  | none => exact ⟨.late (round4 (t + C.ruleFiring)), ⟨rfl, .inr rfl⟩, .inr hb, fun w hw => hp _ w trivial (hw.resolve_left id)⟩
  | some bv => exact phases_set rfl hb fun w hb => phases_fire C n rule t hp hb

theorem phases_procedural (C : Cfg) {t : ℚ} (ht : OnGrid t) (w : Mach) : Phases C.ruleFiring (fun _ _ _ => True) (.start t) (genProcedural C t w) := by
  have hend : ∀ ph w, (ph.over ∨ (ph.last ∧ Bears w)) → Phases C.ruleFiring (fun _ _ _ => True) ph ((GenM.yield .procs : GenM Unit) w) := fun ph w h => h
  unfold genProcedural
  show Phases _ _ _ ((GenM.event t procName .conflict >>= _) { w with procs := w.procs ++ [.procedural], bv := BV.init })
  refine phases_event (ph' := .conf t) ⟨round4_onGrid ht, rfl, rfl⟩ (List.mem_append_right _ (.head _)) fun w hw => ?_
  refine phases_act (fun w => ?_) (hw.resolve_left id) fun sel w hb => ?_
  · unfold selectIn
    dsimp only
    split
    · rfl
    · rfl
    · split <;> rfl
  rcases sel with _ | ⟨n, rule⟩
  · exact ⟨.none, ⟨round4_onGrid ht, .inl ⟨rfl, rfl⟩⟩, .inl trivial, fun w _ => hend _ w (.inl trivial)⟩
  · exact phases_bind (phases_selected C n rule ht (fun ph w hl hb => hend ph w (.inr ⟨hl, hb⟩)) hb)

/-! ## The code of other processes -/

/-- The generators in the hands of processes do not touch the list of processes. -/
def Modest : Pt → Prop
  | .localNew _ g => ∀ w, (g w).Moves Leaves w
  | .localWait _ _ k => ∀ w, (k w).Moves Leaves w
  | .envWait _ k => ∀ w, (k w).Moves Leaves w
  | _ => True

/-- What processes do, other than those of the rules (if `K`): after a report, the event that activates the rules has been triggered. -/
structure Mood (K : Prop) (s s' : Sim) : Prop where
  next : s.next ≤ s'.next
  act : s'.procActivate = s.procActivate
  keep : K → Keep s.w s'.w
  known : ∀ ev < s.next, (s.events ev).value.isSome → (s'.events ev).value.isSome
  trace : s.trace <+: s'.trace
  said : ∀ x ∈ s'.trace, x ∈ s.trace ∨ x.2.proc = procName ∨ (s'.events s'.procActivate).value.isSome
  pts : ∀ p pt, s'.points p = some pt → s.points p = some pt ∨ (s.next ≤ p ∧ Modest pt)

variable {K : Prop} {s s' : Sim} {p : ℕ}

theorem mood_refl (s : Sim) : Mood K s s := ⟨le_rfl, rfl, fun _ => keep_refl _, fun _ _ h => h, List.prefix_rfl, fun _ h => .inl h, fun _ _ h => .inl h⟩

theorem mood_trans {a b c : Sim} (hl : a.procActivate < a.next) (h1 : Mood K a b) (h2 : Mood K b c) : Mood K a c := by
  refine ⟨h1.next.trans h2.next, h2.act.trans h1.act, fun k => keep_trans _ _ _ (h1.keep k) (h2.keep k), fun ev hev h => h2.known ev (hev.trans_le h1.next) (h1.known ev hev h), h1.trace.trans h2.trace,
    fun x hx => ?_, fun p pt hp => ?_⟩
  · rcases h2.said x hx with h | h | h
    · rcases h1.said x h with h | h | h
      · exact .inl h
      · exact .inr (.inl h)
      · refine .inr (.inr ?_)
        rw [h2.act]
        exact h2.known _ (by rw [h1.act]; exact hl.trans_le h1.next) h
    · exact .inr (.inl h)
    · exact .inr (.inr h)
  · rcases h2.pts p pt hp with h | ⟨h, h'⟩
    · exact h1.pts p pt h
    · exact .inr ⟨h1.next.trans h, h'⟩

/-- Code that behaves like this. -/
def Moody (K : Prop) (m : SimM A) : Prop := ∀ s : Sim, s.procActivate < s.next → Mood K s (m s).1

/-- The code of a process; it ends, or goes on with a generator that behaves well. -/
def MoodyRes (K : Prop) (m : SimM Res) : Prop := ∀ s : Sim, s.procActivate < s.next → Mood K s (m s).1 ∧ ∀ ev pt, (m s).2 = .ok (.wait ev pt) → Modest pt

theorem moody_bind {m : SimM A} {f : A → SimM B} (hm : Moody K m) (hf : ∀ a, Moody K (f a)) : Moody K (m >>= f) := by
  intro s hl
  show Mood K s (SimM.bind m f s).1
  unfold SimM.bind
  have h1 := hm s hl
  rcases h : m s with ⟨s1, e | a⟩
  · rw [h] at h1; exact h1
  · rw [h] at h1; exact mood_trans hl h1 (hf a s1 (by rw [h1.act]; exact hl.trans_le h1.next))

theorem moody_bindRes {m : SimM A} {f : A → SimM Res} (hm : Moody K m) (hf : ∀ a, MoodyRes K (f a)) : MoodyRes K (m >>= f) := by
  intro s hl
  show Mood K s (SimM.bind m f s).1 ∧ ∀ ev pt, (SimM.bind m f s).2 = .ok (.wait ev pt) → Modest pt
  unfold SimM.bind
  have h1 := hm s hl
  rcases h : m s with ⟨s1, e | a⟩
  · rw [h] at h1; exact ⟨h1, by simp⟩
  · rw [h] at h1
    have h2 := hf a s1 (by rw [h1.act]; exact hl.trans_le h1.next)
    exact ⟨mood_trans hl h1 h2.1, h2.2⟩

theorem moody_pure {a : A} : Moody K (pure a) := fun s _ => mood_refl s
theorem moody_throw {e : PyErr} : Moody K (SimM.throw e : SimM A) := fun s _ => mood_refl s
theorem moody_get {f : Sim → A} : Moody K (SimM.get f) := fun s _ => mood_refl s
theorem moody_wait {ev : ℕ} {pt : Pt} (h : Modest pt) : MoodyRes K (pure (.wait ev pt)) := fun s _ => ⟨mood_refl s, fun _ _ he => by cases he; exact h⟩
theorem moody_done {v : SVal} : MoodyRes K (pure (.done v)) := fun s _ => ⟨mood_refl s, fun _ _ he => by cases he⟩
theorem moody_throwRes {e : PyErr} : MoodyRes K (SimM.throw e) := fun s _ => ⟨mood_refl s, fun _ _ he => by cases he⟩

/-- Nothing changes but what is given. -/
theorem mood_same (h0 : s'.next = s.next) (h1 : s'.procActivate = s.procActivate) (h2 : s'.events = s.events) (h3 : s'.trace = s.trace) (h4 : s'.points = s.points) (hk : K → Keep s.w s'.w) : Mood K s s' :=
  ⟨h0.ge, h1, hk, fun ev _ h => by rw [h2]; exact h, by rw [h3], fun x hx => .inl (h3 ▸ hx), fun p pt hp => .inl (h4 ▸ hp)⟩

theorem moody_set {f : Sim → Sim} (h : ∀ s : Sim, (f s).next = s.next ∧ (f s).procActivate = s.procActivate ∧ (f s).events = s.events ∧ (f s).trace = s.trace ∧ (f s).points = s.points ∧ (K → Keep s.w (f s).w)) :
    Moody K (SimM.set f) := fun s _ => mood_same (h s).1 (h s).2.1 (h s).2.2.1 (h s).2.2.2.1 (h s).2.2.2.2.1 (h s).2.2.2.2.2

theorem mood_alloc (s : Sim) (E : SEv) : Mood K s (s.alloc E) :=
  ⟨Nat.le_succ _, rfl, fun _ => keep_refl _, fun ev hev h => by rw [events_alloc_old (Nat.ne_of_lt hev)]; exact h, List.prefix_rfl, fun _ h => .inl h, fun _ _ h => .inl h⟩

theorem mood_schedule (s : Sim) (ev : ℕ) (u : Bool) (d : ℚ) : Mood K s (s.schedule ev u d) := mood_same rfl rfl rfl rfl rfl fun _ => keep_refl _

theorem mood_timer (s : Sim) (E : SEv) (u : Bool) (d : ℚ) (hl : s.procActivate < s.next) : Mood K s ((s.alloc E).schedule s.next u d) := mood_trans hl (mood_alloc s E) (mood_schedule _ _ _ _)

theorem moody_newEvent : Moody K newEvent := fun s _ => mood_alloc s _

theorem isSome_fset {s : Sim} {ev x : ℕ} {E : SEv} (hE : (s.events ev).value.isSome → E.value.isSome) (h : (s.events x).value.isSome) : (fset s.events ev E x).value.isSome := by
  by_cases hx : x = ev
  · subst hx; rw [fset_same]; exact hE h
  · rw [fset_other _ _ hx]; exact h

theorem mood_events {f : ℕ → SEv} (h : ∀ ev, (s.events ev).value.isSome → (f ev).value.isSome) : Mood K s { s with events := f } :=
  ⟨le_rfl, rfl, fun _ => keep_refl _, fun ev _ h' => h ev h', List.prefix_rfl, fun _ h => .inl h, fun _ _ h => .inl h⟩

theorem mood_trigger (s : Sim) (ev : ℕ) (v : Except PyErr SVal) (hl : s.procActivate < s.next) : Mood K s (s.trigger ev v) :=
  mood_trans hl (mood_events fun _ h => isSome_fset (fun _ => rfl) h) (mood_schedule _ _ _ _)

theorem mood_addCallback (s : Sim) (ev : ℕ) (c : Callback) : Mood K s (s.addCallback ev c) := mood_events fun _ h => isSome_fset (fun h => h) h

theorem moody_succeed {ev : ℕ} : Moody K (succeed ev) := fun s hl => by
  unfold succeed
  split
  · exact mood_refl s
  · exact mood_trigger s ev _ hl

theorem moody_timeout {d : ℚ} : Moody K (timeout d) := fun s hl => by
  unfold timeout
  split
  · exact mood_refl s
  · exact mood_timer s _ _ _ hl

theorem moody_process {pt : Pt} (h : Modest pt) : Moody K (process pt) := fun s hl => by
  have h1 := mood_alloc (K := K) s ⟨Option.none, false, some []⟩
  have h2 := mood_timer (K := K) (s.alloc ⟨Option.none, false, some []⟩) ⟨some (.ok .nothing), false, some [.resume s.next]⟩ true 0 (by rw [h1.act]; exact hl.trans_le h1.next)
  have h3 := mood_trans hl h1 h2
  refine ⟨h3.next, h3.act, h3.keep, h3.known, h3.trace, h3.said, fun p pt' hp => ?_⟩
  have hp : fset s.points s.next (some pt) p = some pt' := hp
  by_cases he : p = s.next
  · subst he; rw [fset_same] at hp; cases hp; exact .inr ⟨le_rfl, h⟩
  · rw [fset_other _ _ he] at hp; exact .inl hp

theorem moody_interrupt {q : ℕ} : Moody K (interruptProcess q) := fun s hl => by
  unfold interruptProcess
  split
  · exact mood_refl s
  · exact mood_timer s _ _ _ hl

theorem moody_anyOf {a b : ℕ} : Moody K (anyOf a b) := fun s hl => by
  have key : ∀ (c ev : ℕ) (s : Sim), s.procActivate < s.next → Mood K s (if s.processed ev then (if s.triggered c then s else s.trigger c (.ok .nothing)) else s.addCallback ev (.check c)) := fun c ev s hl => by
    split
    · split
      · exact mood_refl s
      · exact mood_trigger s _ _ hl
    · exact mood_addCallback s _ _
  have h0 : Mood K s (s.alloc ⟨Option.none, false, some [.build s.next a b]⟩) := mood_alloc s _
  have hl1 : ∀ {s' : Sim}, Mood K s s' → s'.procActivate < s'.next := fun h => by rw [h.act]; exact hl.trans_le h.next
  have h1 := mood_trans hl h0 (key s.next a _ (hl1 h0))
  exact mood_trans hl h1 (key s.next b _ (hl1 h1))

theorem moody_activateOf {name : String} : Moody K (activateOf name) := fun s _ => by
  unfold activateOf
  cases alook name s.activate <;> exact mood_refl s

theorem moody_interruptExtra {name : String} : Moody K (interruptExtra name) := fun s hl => by
  unfold interruptExtra
  cases alook name s.extra with
  | none => exact mood_refl s
  | some p => exact moody_interrupt s hl

theorem moody_ite {b : Prop} [Decidable b] {m m' : SimM A} (h : Moody K m) (h' : Moody K m') : Moody K (if b then m else m') := by split <;> assumption
theorem moody_iteRes {b : Prop} [Decidable b] {m m' : SimM Res} (h : MoodyRes K m) (h' : MoodyRes K m') : MoodyRes K (if b then m else m') := by split <;> assumption

macro "moodset" : tactic => `(tactic| (refine moody_set fun _ => ?_; exact ⟨rfl, rfl, rfl, rfl, rfl, fun _ => keep_procs rfl⟩))

macro "moody" : tactic => `(tactic| repeat' with_reducible first
  | assumption
  | exact moody_pure | exact moody_throw | exact moody_get | exact moody_newEvent | exact moody_succeed | exact moody_activateOf | exact moody_interruptExtra
  | exact moody_interrupt | exact moody_anyOf | exact moody_timeout | exact moody_process trivial | exact moody_wait trivial | exact moody_done | exact moody_throwRes
  | moodset
  | refine moody_ite ?_ ?_ | refine moody_iteRes ?_ ?_
  | refine moody_bindRes ?_ fun _ => ?_ | refine moody_bind ?_ fun _ => ?_)

/-- Setting the list of processes that were started. -/
theorem moody_setStarted {l : Sim → List PItem} (h : K → ∀ s : Sim, .procedural ∈ s.startedList → .procedural ∈ l s) : Moody K (SimM.set (fun s => s.setStarted (l s))) := fun s _ => by
  show Mood K s (s.setStarted (l s))
  unfold Sim.setStarted
  cases hs : s.started with
  | some _ => exact mood_same rfl rfl rfl rfl rfl fun _ => keep_refl _
  | none =>
    refine mood_same rfl rfl rfl rfl rfl fun k hb => h k s ?_
    unfold Sim.startedList
    rw [hs]; exact hb

theorem moody_activateProc {e : Ev} : Moody K (activateProc e) := by
  rcases activateProc_cases e with hp | hp <;> rw [hp]
  · exact moody_pure
  · intro s hl
    dsimp only
    split
    · exact mood_refl s
    · exact moody_succeed s hl

/-- A report, and the activation of the rules. -/
theorem moody_report {e : Ev} {f : Unit → SimM Res} (hf : ∀ a, MoodyRes K (f a)) : MoodyRes K (do printEvent e; activateProc e; f () : SimM Res) := by
  have key : Moody K (do printEvent e; activateProc e : SimM Unit) := fun s hl => by
    show Mood K s (SimM.bind (printEvent e) (fun _ => activateProc e) s).1
    unfold SimM.bind
    rcases printEvent_cases e with ⟨_, hu⟩ | ⟨hn, hu⟩ <;> rw [hu]
    · exact moody_activateProc s hl
    · show Mood K s (activateProc e { s with trace := s.trace ++ [(s.now, e)] }).1
      set s1 : Sim := { s with trace := s.trace ++ [(s.now, e)] } with hs1
      have h2 := moody_activateProc (K := K) (e := e) s1 hl
      refine ⟨h2.next, h2.act, h2.keep, h2.known, (List.prefix_append _ _).trans h2.trace, fun x hx => ?_, h2.pts⟩
      rcases h2.said x hx with h | h
      · rcases List.mem_append.1 h with h | h
        · exact .inl h
        · rw [List.mem_singleton] at h
          subst h
          by_cases hp : e.proc = procName
          · exact .inr (.inl hp)
          · refine .inr (.inr ?_)
            have : activateProc e = fun s => if s.triggered s.procActivate then (s, .ok ()) else succeed s.procActivate s := by
              unfold activateProc
              split
              · exact absurd ‹_› hn
              · exact if_neg hp
            rw [this]
            dsimp only
            split
            · rename_i ht; exact ht
            · rename_i ht
              unfold succeed
              rw [if_neg ht]
              show (fset s1.events s1.procActivate _ s1.procActivate).value.isSome
              rw [fset_same]; rfl
      · exact .inr h
  have := moody_bindRes key hf
  intro s hl
  have h := this s hl
  have heq : ((do printEvent e; activateProc e : SimM Unit) >>= f) s = (do printEvent e; activateProc e; f () : SimM Res) s := by
    show SimM.bind (SimM.bind (printEvent e) fun _ => activateProc e) f s = SimM.bind (printEvent e) (fun _ => SimM.bind (activateProc e) fun _ => f ()) s
    unfold SimM.bind
    rcases printEvent e s with ⟨s1, x | u⟩
    · rfl
    · dsimp only
  rw [heq] at h
  exact h

theorem moody_envInteraction : Moody K envInteraction := fun s hl => by
  unfold envInteraction
  have h0 : Moody K (SimM.set (fun s => { s with w := { s.w with interaction := [] } })) := by moodset
  cases s.w.env with
  | none => exact mood_refl s
  | some env =>
    dsimp only
    split
    · exact moody_bind (moody_succeed (ev := s.envActivate)) (fun _ => h0) s hl
    · exact h0 s hl

theorem mood_w (s : Sim) {w : Mach} (h : Keep s.w w) : Mood K s { s with w := w } := mood_same rfl rfl rfl rfl rfl fun _ => h

/-- Setting the world before a piece of code. -/
theorem moody_w {m : SimM Res} (h : MoodyRes K m) {s : Sim} {w : Mach} (hk : Leaves s.w w) (hl : s.procActivate < s.next) :
    Mood K s (m { s with w := w }).1 ∧ ∀ ev pt, (m { s with w := w }).2 = .ok (.wait ev pt) → Modest pt := by
  have := h { s with w := w } hl
  exact ⟨mood_trans hl (mood_w s (keep_procs hk)) this.1, this.2⟩

/-- The generator has been resumed in this state. -/
theorem moody_localRun {name : String} {o : Out Mach YV Unit} {s : Sim} (ho : o.Moves Leaves s.w) (hl : s.procActivate < s.next) :
    Mood K s (localRun name o s).1 ∧ ∀ ev pt, (localRun name o s).2 = .ok (.wait ev pt) → Modest pt := by
  have hset : ∀ (w : Mach) (f : Unit → SimM Res), Leaves s.w w → MoodyRes K (f ()) →
      Mood K s ((SimM.set (fun s => { s with w := w }) >>= f) s).1 ∧ ∀ ev pt, ((SimM.set (fun s => { s with w := w }) >>= f) s).2 = .ok (.wait ev pt) → Modest pt :=
    fun w f hk hf => moody_w hf hk hl
  cases o with
  | yield w y k =>
    have hm : ∀ w', (k w').Moves Leaves w' := ho.2
    cases y with
    | ev e => exact hset w _ ho.1 (moody_bindRes moody_get fun now => moody_bindRes moody_timeout fun t => moody_wait hm)
    | cont d => exact hset w _ ho.1 moody_done
    | procs => exact hset w _ ho.1 moody_done
    | nothing => exact hset w _ ho.1 moody_done
  | ret w r => exact hset w _ ho moody_done
  | raise w x => exact hset w _ ho moody_throwRes

theorem moody_resumed {name : String} {k : Mach → Out Mach YV Unit} (h : ∀ w, (k w).Moves Leaves w) : MoodyRes K (do let w ← SimM.get Sim.w; localRun name (k w) : SimM Res) :=
  fun s hl => moody_localRun (h s.w) hl

theorem moody_localResume {name : String} {e : Ev} {k : Mach → Out Mach YV Unit} {x : Except PyErr SVal} (h : ∀ w, (k w).Moves Leaves w) : MoodyRes K (localResume name e k x) := by
  unfold localResume
  split
  · exact moody_done
  · exact moody_throwRes
  · exact moody_report fun _ => moody_bindRes moody_envInteraction fun _ => moody_resumed h

theorem moody_renew {name : String} : Moody K (renewActivate name) := by unfold renewActivate; moody

theorem takeFor_keeps {name : String} : ∀ (l : List PItem) {x rest}, takeFor name l = .ok (some (x, rest)) → .procedural ∈ l → .procedural ∈ rest
  | [], x, rest, h, _ => by cases h
  | .procedural :: r, x, rest, h, _ => by
    unfold takeFor at h
    split at h
    · cases h
    · cases hr : takeFor name r with
      | error e => rw [hr] at h; cases h
      | ok o =>
        rw [hr] at h
        cases o with
        | none => cases h
        | some y =>
          have h : (Except.ok (some (y.1, PItem.procedural :: y.2)) : Except PyErr _) = _ := h
          cases h
          exact .head _
  | .gen n i d :: r, x, rest, h, hm => by
    have hm : .procedural ∈ r := by simpa using hm
    unfold takeFor at h
    split at h
    · cases h; exact hm
    · cases hr : takeFor name r with
      | error e => rw [hr] at h; cases h
      | ok o =>
        rw [hr] at h
        cases o with
        | none => cases h
        | some y =>
          have h : (Except.ok (some (y.1, PItem.gen n i d :: y.2)) : Except PyErr _) = _ := h
          cases h
          exact .tail _ (takeFor_keeps r hr hm)

theorem moody_extraLoop (C : Cfg) {name : String} : MoodyRes K (extraLoop C name) := by
  have hr := moody_renew (K := K) (name := name)
  have hgen : ∀ d : Desc, Modest (.localNew name (d.run C)) := fun d w => leaves_run C d w
  intro s hl
  show Mood K s ((SimM.bind (SimM.get Sim.startedList) _ : SimM Res) s).1 ∧ ∀ ev pt, ((SimM.bind (SimM.get Sim.startedList) _ : SimM Res) s).2 = .ok (.wait ev pt) → Modest pt
  unfold SimM.bind SimM.get
  dsimp only
  generalize ht : takeFor name s.startedList = r
  rcases r with x | _ | ⟨⟨i, d⟩, rest⟩
  · exact moody_throwRes s hl
  · have : MoodyRes K (do
      .set (fun s => { s with interruptibles := adel name s.interruptibles })
      let a ← activateOf name
      let gone ← SimM.get (·.processed a)
      if gone then do
        let a' ← renewActivate name
        pure (.wait a' (.extraIdle name))
      else pure (.wait a (.extraIdle name)) : SimM Res) := by moody <;> exact moody_wait trivial
    exact this s hl
  · have hrest : MoodyRes K (do
      let a ← activateOf name
      let busy ← SimM.get (·.triggered a)
      if busy then pure () else succeed a
      let pro ← process (.localNew name (d.run C))
      pure (.wait pro (.extraMain name pro)) : SimM Res) := by
      have hp := moody_process (K := K) (hgen d)
      moody <;> exact moody_wait trivial
    have h1 : Mood K s (s.setStarted rest) := by
      unfold Sim.setStarted
      cases hs : s.started with
      | some _ => exact mood_same rfl rfl rfl rfl rfl fun _ => keep_refl _
      | none =>
        refine mood_same rfl rfl rfl rfl rfl fun k hb => ?_
        refine takeFor_keeps _ ht ?_
        unfold Sim.startedList
        rw [hs]; exact hb
    have h2 := hrest (s.setStarted rest) (by rw [h1.act]; exact hl.trans_le h1.next)
    exact ⟨mood_trans hl h1 h2.1, h2.2⟩

theorem moody_extraAfterMain (C : Cfg) {name : String} {pro : ℕ} {x : Except PyErr SVal} : MoodyRes K (extraAfterMain C name pro x) := by
  have hr := moody_extraLoop (K := K) C (name := name)
  unfold extraAfterMain
  split
  · moody
  · moody
  · exact moody_bindRes (moody_process fun w => leaves_run C _ w) fun _ => moody_wait trivial
  · moody

theorem moody_extraAfterCont (C : Cfg) {name : String} {x : Except PyErr SVal} : MoodyRes K (extraAfterCont C name x) := by
  have hr := moody_extraLoop (K := K) C (name := name)
  unfold extraAfterCont
  split <;> moody

theorem moody_envIter {e : EnvEvent} {k : Mach → Out Mach EnvEvent Unit} (h : ∀ w, (k w).Moves Leaves w) : MoodyRes K (envIter e k) := by
  unfold envIter
  exact moody_bindRes (moody_process trivial) fun pro => moody_bindRes moody_get fun a => moody_bindRes moody_anyOf fun c => moody_wait h

theorem moody_envStart (C : Cfg) : MoodyRes K (envStart C) := fun s hl => by
  cases ha : s.envArgs with
  | none =>
    have : envStart C s = (s, .error .type) := by simp only [envStart, ha]
    rw [this]; exact ⟨mood_refl s, by simp⟩
  | some a =>
    have hk := leaves_env C.upper a.stimuli a.triggers a.times a.startTime s.w
    rcases ho : envProcess (fun env (w : Mach) => { w with env := some env }) envOf C.upper a.stimuli a.triggers a.times a.startTime s.w with ⟨w, e, k⟩ | ⟨w, r⟩ | ⟨w, x⟩
    · rw [ho] at hk
      have : envStart C s = envIter e k { s with w := w } := by simp only [envStart, ha, ho]
      rw [this]; exact moody_w (moody_envIter hk.2) hk.1 hl
    · rw [ho] at hk
      have : envStart C s = (SimM.throw .runtime : SimM Res) { s with w := w } := by simp only [envStart, ha, ho]; rfl
      rw [this]; exact moody_w moody_throwRes hk hl
    · rw [ho] at hk
      have : envStart C s = (SimM.throw x : SimM Res) { s with w := w } := by simp only [envStart, ha, ho]; rfl
      rw [this]; exact moody_w moody_throwRes hk hl

theorem moody_startAutomatic {name : String} {i : ℕ} {d : Desc} : Moody K (startAutomatic name i d) := by
  unfold startAutomatic
  refine moody_bind (moody_setStarted fun _ s h => List.mem_append_left _ h) fun _ => moody_bind moody_activateOf fun a => moody_bind moody_get fun busy => ?_
  split
  · refine moody_bind moody_get fun old => ?_
    split <;> moody
  · moody

theorem moody_automatic {name : String} : Moody K (automatic name) := fun s hl => by
  unfold automatic
  split
  · exact mood_refl s
  · split
    · exact mood_refl s
    · exact mood_trans hl (mood_w s (w := { s.w with nextId := s.w.nextId + 1 }) (keep_procs rfl)) (moody_startAutomatic _ hl)

theorem moody_automaticAll : ∀ l : List String, Moody K (automaticAll l)
  | [] => moody_pure
  | _ :: r => moody_bind moody_automatic fun _ => moody_automaticAll r

theorem moody_envNext {pro : ℕ} : Moody K (envNext pro) := by unfold envNext; moody

theorem moody_envAdvance {k : Mach → Out Mach EnvEvent Unit} (h : ∀ w, (k w).Moves Leaves w) : MoodyRes K (envAdvance k) := fun s hl => by
  have hk := h s.w
  unfold envAdvance
  split
  · rename_i w _ ho; rw [ho] at hk; exact moody_w (moody_done (v := .nothing)) hk hl
  · rename_i w x ho; rw [ho] at hk; exact moody_w (moody_throwRes (e := x)) hk hl
  · rename_i w e k' ho
    rw [ho] at hk
    exact moody_w (moody_bindRes (moody_automaticAll _) fun _ => moody_envIter hk.2) hk.1 hl

theorem moody_envProcStart {e : Ev} : MoodyRes K (envProcStart e) := fun s hl => by
  unfold envProcStart
  have h1 := moody_timeout (K := K) (d := e.time - s.now) s hl
  split
  · rename_i s1 t h
    rw [h] at h1
    exact ⟨h1, fun ev pt' he => by cases he; trivial⟩
  · rename_i s1 x h
    rw [h] at h1
    have h2 := moody_bindRes (moody_activateProc (K := K) (e := e)) (fun _ => moody_throwRes (e := x)) s1 (by rw [h1.act]; exact hl.trans_le h1.next)
    exact ⟨mood_trans hl h1 h2.1, h2.2⟩

theorem moody_envProcResume {e : Ev} {x : Except PyErr SVal} : MoodyRes K (envProcResume e x) := by
  unfold envProcResume
  split
  · exact moody_bindRes moody_activateProc fun _ => moody_done
  · exact moody_bindRes moody_activateProc fun _ => moody_throwRes
  · exact moody_report fun _ => moody_done

/-- The processes other than number 2. -/
theorem moody_code (C : Cfg) {pt : Pt} {x : Except PyErr SVal} (hm : pt.main = false) (h : Modest pt) : MoodyRes K (code C pt x) := by
  cases pt with
  | procNew => cases hm
  | procFirst => cases hm
  | procIdle => cases hm
  | procSpin n => cases hm
  | procAgain => cases hm
  | extraMain name pro => exact moody_extraAfterMain C
  | extraCont name => exact moody_extraAfterCont C
  | localWait name e k => exact moody_localResume h
  | envProc e => exact moody_envProcResume
  | extraNew name => rcases x with x | v <;> [exact moody_throwRes; exact moody_extraLoop C]
  | extraIdle name => rcases x with x | v <;> [exact moody_throwRes; exact moody_bindRes moody_renew fun _ => moody_extraLoop C]
  | localNew name g => rcases x with x | v <;> [exact moody_throwRes; exact moody_resumed h]
  | envNew => rcases x with x | v <;> [exact moody_throwRes; exact moody_envStart C]
  | envWait pro k => rcases x with x | v <;> [exact moody_throwRes; exact moody_bindRes moody_envNext fun _ => moody_envAdvance h]
  | envProcNew e => rcases x with x | v <;> [exact moody_throwRes; exact moody_envProcStart]

theorem moody_notify {x : PItem} : Moody K (notify x) := by
  cases x with
  | procedural => exact moody_throw
  | gen name i d =>
    unfold notify
    refine moody_bind moody_activateOf fun a => moody_bind moody_get fun busy => ?_
    split
    · refine moody_bind moody_get fun old => ?_
      split <;> moody
    · moody

theorem moody_notifyAll : ∀ l : List PItem, Moody K (notifyAll l)
  | [] => moody_pure
  | _ :: r => moody_bind moody_notify fun _ => moody_notifyAll r

end Verif
