import Verif.Lemmas.Sim
import Verif.Lemmas.Match
/-! # The code of processes keeps the invariant -/
namespace Verif
open Verif.Spec

/-! ## Processes that report nothing about rules -/

/-- Process number 2 is the one of the rules; other processes report nothing about rules. -/
def Modular (p : ℕ) : Pt → Prop
  | .procNew => p = 2
  | .procFirst => p = 2
  | .procIdle => p = 2
  | .procSpin _ => p = 2
  | .procAgain => p = 2
  | .localNew _ g => ∀ w, (g w).Yields ModuleY
  | .localWait _ e k => ¬ Cyclic e.act ∧ ∀ w, (k w).Yields ModuleY
  | .envProcNew e => ¬ Cyclic e.act
  | .envProc e => ¬ Cyclic e.act
  | _ => True

/-- Nothing is reported about rules, nobody passes on the list of processes, and all new processes are modular. -/
structure Calm (s s' : Sim) : Prop where
  reports : timedReports s'.trace = timedReports s.trace
  procs : ∀ ev, (s'.events ev).value = some (.ok .procs) → (s.events ev).value = some (.ok .procs)
  newp : ∀ p pt, s'.points p = some pt → s.points p = some pt ∨ (s.next ≤ p ∧ Modular p pt)
  next : s.next ≤ s'.next

theorem calm_refl (s : Sim) : Calm s s := ⟨rfl, fun _ h => h, fun _ _ h => .inl h, le_rfl⟩

theorem calm_trans {a b c : Sim} (h1 : Calm a b) (h2 : Calm b c) : Calm a c :=
  ⟨h2.reports.trans h1.reports, fun ev h => h1.procs ev (h2.procs ev h), fun p pt h => by
    rcases h2.newp p pt h with h | ⟨h, h'⟩
    · exact h1.newp p pt h
    · exact .inr ⟨h1.next.trans h, h'⟩, h1.next.trans h2.next⟩

/-- Both. -/
def Full (s s' : Sim) : Prop := Mild s s' ∧ Calm s s'

theorem full_refl (s : Sim) : Full s s := ⟨mild_refl s, calm_refl s⟩
theorem full_trans (a b c : Sim) (h1 : Full a b) (h2 : Full b c) : Full a c := ⟨mild_trans h1.1 h2.1, calm_trans h1.2 h2.2⟩

/-- `Does` for this invariant. -/
abbrev Doing {A : Type} (m : SimM A) (s : Sim) (Q : Sim → A → Prop) : Prop := Does Run Full m s Q

variable {A B : Type} {s : Sim}

theorem doing_bind {m : SimM A} {f : A → SimM B} {Q : Sim → A → Prop} {Q' : Sim → B → Prop}
    (hm : Doing m s Q) (hf : ∀ a s', Run s' → Full s s' → Q s' a → Doing (f a) s' Q') : Doing (m >>= f) s Q' := does_bind full_trans hm hf
theorem doing_pure {a : A} {Q : Sim → A → Prop} (hi : Run s) (hq : Q s a) : Doing (pure a) s Q := does_pure full_refl hi hq
theorem doing_throw {e : PyErr} {Q : Sim → A → Prop} (hi : Run s) : Doing (SimM.throw e : SimM A) s Q := does_throw full_refl hi
theorem doing_get {f : Sim → A} (hi : Run s) : Doing (SimM.get f) s (fun s' a => s' = s ∧ a = f s) := does_get full_refl hi

/-! ## Elementary operations -/

theorem calm_events {s s' : Sim} (ht : s'.trace = s.trace) (hp : s'.points = s.points) (hn : s.next ≤ s'.next)
    (hv : ∀ ev, (s'.events ev).value = some (.ok .procs) → (s.events ev).value = some (.ok .procs)) : Calm s s' :=
  ⟨by rw [ht], hv, fun p pt h => .inl (by rw [hp] at h; exact h), hn⟩

/-- No process is interrupted by the event. -/
def NoInt (s : Sim) (x : ℕ) : Prop := ∀ p, .interrupt p ∉ s.cbs x

theorem doing_alloc {E : SEv} (h : Run s) (hr : ∀ p, .resume p ∉ E.callbacks.getD []) (hc : ∀ p, .check p ∉ E.callbacks.getD [])
    (hi : ∀ p, .interrupt p ∈ E.callbacks.getD [] → E.value = some (.error .interrupt)) (hv : E.value ≠ some (.ok .procs)) (hs : .stop ∉ E.callbacks.getD []) :
    Run (s.alloc E) ∧ Full s (s.alloc E) := by
  have hm := mild_alloc h.1 hr hs
  refine ⟨run_of h (inv_alloc h.1 hr hc fun p hp => ⟨hi p hp, hs⟩) hm, hm, calm_events rfl rfl hm.next fun ev he => ?_⟩
  by_cases hne : ev = s.next
  · subst hne; rw [events_alloc_new] at he; exact absurd he hv
  · rw [events_alloc_old hne] at he; exact he

theorem doing_newEvent (h : Run s) : Doing newEvent s (fun s' a => Quiet s' a) := by
  obtain ⟨h1, h2⟩ := doing_alloc (E := ⟨Option.none, false, some []⟩) h (by simp) (by simp) (by simp) (by simp) (by simp)
  refine ⟨h1, h2, fun a ha => ?_⟩
  obtain rfl : s.next = a := by simpa [newEvent] using ha
  refine ⟨Nat.lt_succ_self _, (h.1.fresh s.next le_rfl).2.2, fun p hp => ?_⟩
  change _ ∈ (s.alloc _).cbs s.next at hp
  rw [cbs_alloc_new] at hp
  simp at hp

theorem full_trigger {ev : ℕ} {v : Except PyErr SVal} (h : Run s) (hv : (s.events ev).value = Option.none) (hq : Quiet s ev) (hne : v ≠ .ok .procs) :
    Run (s.trigger ev v) ∧ Full s (s.trigger ev v) := by
  have hm : Mild s (s.trigger ev v) := mild_trigger hv
  refine ⟨run_of h (inv_trigger h.1 h.2 hv hq.1 hq.2.1) hm, hm, calm_events rfl rfl le_rfl fun x he => ?_⟩
  change ((s.valued ev v).events x).value = _ at he
  by_cases hx : x = ev
  · subst hx
    simp [Sim.valued, fset] at he
    exact absurd he hne
  · simpa [Sim.valued, fset, hx] using he

theorem doing_succeed {ev : ℕ} (h : Run s) (hq : Quiet s ev) : Doing (succeed ev) s (fun _ _ => True) := by
  by_cases ht : s.triggered ev = true
  · have : succeed ev s = (s, .error .runtime) := by simp [succeed, ht]
    unfold Doing Does
    rw [this]
    exact ⟨h, full_refl s, by simp⟩
  · have : succeed ev s = (s.trigger ev (.ok .nothing), .ok ()) := by simp [succeed, ht]
    unfold Doing Does
    rw [this]
    have hv : (s.events ev).value = Option.none := by simpa [Sim.triggered] using ht
    obtain ⟨h1, h2⟩ := full_trigger (v := .ok .nothing) h hv hq (by simp)
    exact ⟨h1, h2, by simp⟩

theorem doing_timeout {d : ℚ} (h : Run s) (hg : 0 ≤ d → OnGrid (s.now + d)) :
    Doing (timeout d) s (fun s' a => Timed s' a (s.now + d) ∧ NoInt s' a) := by
  by_cases ht : d < 0
  · have : timeout d s = (s, .error .value) := by simp [timeout, ht]
    unfold Doing Does
    rw [this]
    exact ⟨h, full_refl s, by simp⟩
  · have : timeout d s = ((s.alloc ⟨some (.ok .nothing), false, some []⟩).schedule s.next false d, .ok s.next) := by simp [timeout, ht]
    unfold Doing Does
    rw [this]
    obtain ⟨h1, h2⟩ := doing_alloc (E := ⟨some (.ok .nothing), false, some []⟩) h (by simp) (by simp) (by simp) (by simp) (by simp)
    have hi : Inv ((s.alloc ⟨some (.ok .nothing), false, some []⟩).schedule s.next false d) :=
      inv_schedule h1.1 (Nat.lt_succ_self _) (not_lt.1 ht) (.inl (hg (not_lt.1 ht))) (untimed_of_value h.1 (h.1.fresh s.next le_rfl).2.1) (by rw [events_alloc_new]; rfl)
    have hm : Mild s ((s.alloc ⟨some (.ok .nothing), false, some []⟩).schedule s.next false d) := mild_later h2.1 (h.1.fresh _ le_rfl).2.1
    refine ⟨run_of h hi hm, ⟨hm, h2.2.reports, h2.2.procs, h2.2.newp, h2.2.next⟩, fun a ha => ?_⟩
    simp only [Except.ok.injEq] at ha
    subst ha
    refine ⟨⟨?_, fun en hen he => ?_⟩, fun p hp => ?_⟩
    · show ((s.alloc _).events s.next).value = _
      rw [events_alloc_new]
    · rcases (mem_insertEntry _ _ _).1 hen with rfl | hen
      · exact ⟨rfl, rfl⟩
      · exact absurd he (Nat.ne_of_lt (h.1.known en hen))
    · change _ ∈ (s.alloc _).cbs s.next at hp
      rw [cbs_alloc_new] at hp
      simp at hp

/-- A new process. -/
theorem run_process {pt : Pt} (h : Run s) (hpt : ∀ s ev, PtOk s ev pt) (hd : pt.due = Option.none) :
    Run (process pt s).1 ∧ Mild s (process pt s).1 := by
  have hi := inv_withProcess h.1 hpt
  have hm : Mild s ((s.withProcess pt).schedule (s.next + 1) true 0) := mild_later (mild_withProcess h.1) (h.1.fresh _ (Nat.le_succ _)).2.1
  have : Inv ((s.withProcess pt).schedule (s.next + 1) true 0) :=
    inv_schedule hi (Nat.lt_succ_self _) le_rfl (.inl (by rw [add_zero]; exact h.2)) (untimed_withProcess h.1 hd) (by rw [events_withProcess, if_pos rfl]; rfl)
  exact ⟨run_of h this hm, hm⟩

theorem noInt_process {pt : Pt} (h : Run s) : NoInt (process pt s).1 s.next := by
  intro p hp
  change _ ∈ (s.withProcess pt).cbs s.next at hp
  rw [cbs_withProcess h.1, if_neg (by omega)] at hp
  simp [Sim.cbs, (h.1.fresh s.next le_rfl).1] at hp

theorem doing_process {pt : Pt} (h : Run s) (hpt : ∀ s ev, PtOk s ev pt) (hd : pt.due = Option.none) (hmod : Modular s.next pt) :
    Doing (process pt) s (fun s' a => NoInt s' a) := by
  obtain ⟨h1, h2⟩ := run_process h hpt hd
  refine ⟨h1, ⟨h2, rfl, fun ev he => ?_, fun p q hp => ?_, h2.next⟩, fun a ha => ?_⟩
  · change ((s.withProcess pt).events ev).value = _ at he
    rw [events_withProcess] at he
    split at he
    · simp at he
    · split at he
      · simp at he
      · exact he
  · change fset s.points s.next (some pt) p = some q at hp
    by_cases he : p = s.next
    · subst he; rw [fset_same] at hp; cases hp; exact .inr ⟨le_rfl, hmod⟩
    · rw [fset_other _ _ he] at hp; exact .inl hp
  · rw [process_eq] at ha
    simp only [Except.ok.injEq] at ha
    subst ha
    exact noInt_process h

theorem doing_interrupt {p : ℕ} (h : Run s) : Doing (interruptProcess p) s (fun _ _ => True) := by
  by_cases ht : s.triggered p = true
  · have : interruptProcess p s = (s, .error .runtime) := by simp [interruptProcess, ht]
    unfold Doing Does
    rw [this]
    exact ⟨h, full_refl s, by simp⟩
  · have : interruptProcess p s = ((s.alloc ⟨some (.error .interrupt), true, some [.interrupt p]⟩).schedule s.next true 0, .ok ()) := by
      simp [interruptProcess, ht]
    unfold Doing Does
    rw [this]
    obtain ⟨h1, h2⟩ := doing_alloc (E := ⟨some (.error .interrupt), true, some [.interrupt p]⟩) h (by simp) (by simp) (by simp) (by simp) (by simp)
    have hi : Inv ((s.alloc ⟨some (.error .interrupt), true, some [.interrupt p]⟩).schedule s.next true 0) :=
      inv_schedule h1.1 (Nat.lt_succ_self _) le_rfl (.inl (by rw [add_zero]; exact h.2)) (untimed_of_value h.1 (h.1.fresh s.next le_rfl).2.1) (by rw [events_alloc_new]; rfl)
    have hm : Mild s ((s.alloc ⟨some (.error .interrupt), true, some [.interrupt p]⟩).schedule s.next true 0) := mild_later h2.1 (h.1.fresh _ le_rfl).2.1
    exact ⟨run_of h hi hm, ⟨hm, h2.2.reports, h2.2.procs, h2.2.newp, h2.2.next⟩, by simp⟩

/-- `Condition._check` when the condition is made. -/
theorem doing_check {c ev : ℕ} (h : Run s) (hq : Quiet s c) :
    Run (if s.processed ev then (if s.triggered c then s else s.trigger c (.ok .nothing)) else s.addCallback ev (.check c)) ∧
    Full s (if s.processed ev then (if s.triggered c then s else s.trigger c (.ok .nothing)) else s.addCallback ev (.check c)) := by
  split
  · split
    · exact ⟨h, full_refl s⟩
    · rename_i ht
      exact full_trigger h (by simpa [Sim.triggered] using ht) hq (by simp)
  · have hm : Mild s (s.addCallback ev (.check c)) := mild_addCheck
    exact ⟨run_of h (inv_addCheck h.1 hq) hm, hm, calm_events rfl rfl le_rfl fun x hx => by rw [value_addCallback] at hx; exact hx⟩

theorem doing_anyOf {a b : ℕ} (h : Run s) : Doing (anyOf a b) s (fun s' c => NoInt s' c) := by
  obtain ⟨h1, h2⟩ := doing_alloc (E := ⟨Option.none, false, some [.build s.next a b]⟩) h (by simp) (by simp) (by simp) (by simp) (by simp)
  have hq : Quiet (s.alloc ⟨Option.none, false, some [.build s.next a b]⟩) s.next := by
    refine ⟨Nat.lt_succ_self _, (h.1.fresh s.next le_rfl).2.2, fun p hp => ?_⟩
    rw [cbs_alloc_new] at hp
    simp at hp
  obtain ⟨h3, h4⟩ := doing_check (ev := a) h1 hq
  have hq2 := mild_quiet h4.1 hq
  obtain ⟨h5, h6⟩ := doing_check (ev := b) h3 hq2
  refine ⟨h5, full_trans _ _ _ h2 (full_trans _ _ _ h4 h6), fun c hc => ?_⟩
  obtain rfl : s.next = c := by simpa [anyOf] using hc
  exact (mild_quiet h6.1 hq2).2.2

theorem doing_activateOf {name : String} (h : Run s) : Doing (activateOf name) s (fun s' a => s' = s ∧ Quiet s a) := by
  unfold Doing Does activateOf
  cases ha : alook name s.activate with
  | none => exact ⟨h, full_refl s, by simp⟩
  | some a =>
    refine ⟨h, full_refl s, fun b hb => ?_⟩
    simp only [Except.ok.injEq] at hb
    subst hb
    exact ⟨rfl, h.1.act _ _ (alook_mem ha)⟩

/-- Assignments to attributes that the invariant does not mention. -/
structure Plain (f : Sim → Sim) : Prop where
  now : ∀ s, (f s).now = s.now
  queue : ∀ s, (f s).queue = s.queue
  events : ∀ s, (f s).events = s.events
  next : ∀ s, (f s).next = s.next
  points : ∀ s, (f s).points = s.points
  target : ∀ s, (f s).target = s.target
  activate : ∀ s, (f s).activate = s.activate
  proc : ∀ s, (f s).procActivate = s.procActivate
  env : ∀ s, (f s).envActivate = s.envActivate
  trace : ∀ s, (f s).trace = s.trace

theorem plain_cases {f : Sim → Sim} (hf : Plain f) (s : Sim) : f s =
    { s with w := (f s).w, interruptibles := (f s).interruptibles, extra := (f s).extra, started := (f s).started, envArgs := (f s).envArgs } := by
  have h := hf
  rcases h : f s with ⟨now, queue, events, next, points, target, w, i, a, e, p, st, ea, eg, tr⟩
  have := hf.now s; have := hf.queue s; have := hf.events s; have := hf.next s; have := hf.points s; have := hf.target s
  have := hf.activate s; have := hf.proc s; have := hf.env s; have := hf.trace s
  simp_all

theorem full_plain {f : Sim → Sim} (hf : Plain f) (h : Run s) : Run (f s) ∧ Full s (f s) := by
  rw [plain_cases hf]
  obtain ⟨h, hg⟩ := h
  exact ⟨⟨⟨h.sorted, h.ahead, h.grid, h.res, h.once, h.intr, h.chk, h.fresh, h.known, h.queued, h.live, h.wait, h.act, h.proc, h.env, h.trace, h.order⟩, hg⟩,
    ⟨rfl, le_rfl, fun _ _ => rfl, fun _ _ => rfl, fun _ _ h => h, fun _ _ => rfl, fun _ _ _ h => .inr h, fun _ h => h, fun _ h => .inl h, fun _ => .rfl⟩, rfl, fun _ h => h, fun _ _ h => .inl h, le_rfl⟩

theorem doing_plain {f : Sim → Sim} (hf : Plain f) (h : Run s) : Doing (SimM.set f) s (fun _ _ => True) :=
  ⟨(full_plain hf h).1, (full_plain hf h).2, by simp⟩

macro "plain" : tactic => `(tactic| (constructor <;> intro s <;> first | rfl | (dsimp only [Sim.setStarted]; split <;> rfl)))

theorem aset_mem {α : Type} {n m : String} {a b : α} {l : List (String × α)} (h : (m, b) ∈ aset n a l) : b = a ∨ (m, b) ∈ l := by
  induction l with
  | nil => simp [aset] at h; exact .inl h.2
  | cons x r ih =>
    obtain ⟨k, c⟩ := x
    simp only [aset] at h
    split at h
    · rcases List.mem_cons.1 h with h | h
      · cases h; exact .inl rfl
      · exact .inr (.tail _ h)
    · rcases List.mem_cons.1 h with h | h
      · cases h; exact .inr (.head _)
      · exact (ih h).imp_right (.tail _)

theorem doing_setActivate {n : String} {a : ℕ} (h : Run s) (hq : Quiet s a) :
    Doing (SimM.set (fun s => { s with activate := aset n a s.activate })) s (fun s' _ => s' = { s with activate := aset n a s.activate }) := by
  obtain ⟨h, hg⟩ := h
  refine does_set ⟨⟨h.sorted, h.ahead, h.grid, h.res, h.once, h.intr, h.chk, h.fresh, h.known, h.queued, h.live, h.wait, fun m b hb => ?_, h.proc, h.env, h.trace, h.order⟩, hg⟩
    ⟨⟨rfl, le_rfl, fun _ _ => rfl, fun _ _ => rfl, fun _ _ h => h, fun _ _ => rfl, fun _ _ _ h => .inr h, fun _ h => h, fun _ h => .inl h, fun _ => .rfl⟩, rfl, fun _ h => h, fun _ _ h => .inl h, le_rfl⟩
  rcases aset_mem hb with rfl | hb
  · exact hq
  · exact h.act m b hb

theorem doing_setProc {a : ℕ} (h : Run s) (hq : Quiet s a) :
    Doing (SimM.set (fun s => { s with procActivate := a })) s (fun s' _ => s' = { s with procActivate := a }) := by
  obtain ⟨h, hg⟩ := h
  exact does_set ⟨⟨h.sorted, h.ahead, h.grid, h.res, h.once, h.intr, h.chk, h.fresh, h.known, h.queued, h.live, h.wait, h.act, hq, h.env, h.trace, h.order⟩, hg⟩
    ⟨⟨rfl, le_rfl, fun _ _ => rfl, fun _ _ => rfl, fun _ _ h => h, fun _ _ => rfl, fun _ _ _ h => .inr h, fun _ h => h, fun _ h => .inl h, fun _ => .rfl⟩, rfl, fun _ h => h, fun _ _ h => .inl h, le_rfl⟩

theorem doing_setEnv {a : ℕ} (h : Run s) (hq : Quiet s a) :
    Doing (SimM.set (fun s => { s with envActivate := a })) s (fun s' _ => s' = { s with envActivate := a }) := by
  obtain ⟨h, hg⟩ := h
  exact does_set ⟨⟨h.sorted, h.ahead, h.grid, h.res, h.once, h.intr, h.chk, h.fresh, h.known, h.queued, h.live, h.wait, h.act, h.proc, hq, h.trace, h.order⟩, hg⟩
    ⟨⟨rfl, le_rfl, fun _ _ => rfl, fun _ _ => rfl, fun _ _ h => h, fun _ _ => rfl, fun _ _ _ h => .inr h, fun _ h => h, fun _ h => .inl h, fun _ => .rfl⟩, rfl, fun _ h => h, fun _ _ h => .inl h, le_rfl⟩

theorem timedReports_append (l m : List (ℚ × Ev)) : timedReports (l ++ m) = timedReports l ++ timedReports m := by simp [timedReports]

theorem printEvent_cases (e : Ev) : (e.act = .unknown ∧ printEvent e = pure ()) ∨
    (e.act ≠ .unknown ∧ printEvent e = .set (fun s => { s with trace := s.trace ++ [(s.now, e)] })) := by
  unfold printEvent
  cases e.act <;> first | exact .inl ⟨rfl, rfl⟩ | exact .inr ⟨by simp, rfl⟩

theorem activateProc_cases (e : Ev) : activateProc e = pure () ∨
    activateProc e = (fun s => if s.triggered s.procActivate then (s, .ok ()) else succeed s.procActivate s) := by
  unfold activateProc
  cases e.act <;> first | exact .inl rfl | exact (em (e.proc = procName)).imp (fun h => if_pos h) (fun h => if_neg h)

/-- Reporting an event at its time. -/
theorem run_print {e : Ev} (h : Run s) (he : e.time = s.now) : Run (printEvent e s).1 ∧ Mild s (printEvent e s).1 := by
  have key : Run ({ s with trace := s.trace ++ [(s.now, e)] } : Sim) ∧ Mild s ({ s with trace := s.trace ++ [(s.now, e)] } : Sim) := by
    obtain ⟨h, hg⟩ := h
    refine ⟨⟨⟨h.sorted, h.ahead, h.grid, h.res, h.once, h.intr, h.chk, h.fresh, h.known, h.queued, h.live, h.wait, h.act, h.proc, h.env, fun x hx => ?_, ?_⟩, hg⟩,
      ⟨rfl, le_rfl, fun _ _ => rfl, fun _ _ => rfl, fun _ _ h => h, fun _ _ => rfl, fun _ _ _ h => .inr h, fun _ h => h, fun _ h => .inl h, fun _ => .rfl⟩⟩
    · rcases List.mem_append.1 hx with hx | hx
      · exact h.trace x hx
      · rw [List.mem_singleton] at hx; subst hx; exact ⟨he.symm, he ▸ hg, he.le⟩
    · refine List.pairwise_append.2 ⟨h.order, List.pairwise_singleton _ _, fun x hx y hy => ?_⟩
      rw [List.mem_singleton] at hy; subst hy
      show x.2.time ≤ e.time
      rw [he]; exact (h.trace x hx).2.2
  rcases printEvent_cases e with ⟨_, hp⟩ | ⟨_, hp⟩ <;> rw [hp]
  · exact ⟨h, mild_refl s⟩
  · exact key

theorem doing_print {e : Ev} (h : Run s) (he : e.time = s.now) (hc : ¬ Cyclic e.act) : Doing (printEvent e) s (fun _ _ => True) := by
  obtain ⟨h1, h2⟩ := run_print h he
  refine ⟨h1, ⟨h2, ?_⟩, by simp⟩
  have key : Calm s ({ s with trace := s.trace ++ [(s.now, e)] } : Sim) := by
    refine ⟨?_, fun _ h => h, fun _ _ h => .inl h, le_rfl⟩
    rw [timedReports_append]
    simp [timedReports, hc]
  rcases printEvent_cases e with ⟨_, hp⟩ | ⟨_, hp⟩ <;> rw [hp]
  · exact calm_refl s
  · exact key

/-! ## The code -/

/-- What a process that has run waits for. -/
def WaitOk (p : ℕ) (s : Sim) : Res → Prop
  | .wait ev pt => PtOk s ev pt ∧ NoInt s ev ∧ Modular p pt
  | .done _ => True

theorem doing_activateProc {e : Ev} (h : Run s) : Doing (activateProc e) s (fun _ _ => True) := by
  have key : Doing (fun s => if s.triggered s.procActivate then (s, .ok ()) else succeed s.procActivate s : SimM Unit) s (fun _ _ => True) := by
    unfold Doing Does
    dsimp only
    split
    · exact ⟨h, full_refl s, by simp⟩
    · exact doing_succeed h h.1.proc
  rcases activateProc_cases e with hp | hp <;> rw [hp]
  · exact doing_pure h trivial
  · exact key

theorem doing_envInteraction (h : Run s) : Doing envInteraction s (fun _ _ => True) := by
  have hp : Plain (fun s => { s with w := { s.w with interaction := [] } }) := by plain
  have key : ∀ env : Env, s.w.env = some env → Doing envInteraction s (fun _ _ => True) := by
    intro env he
    have hb : envInteraction s = if triggersEnv env s.w.interaction then
        SimM.bind (succeed s.envActivate) (fun _ => .set (fun s => { s with w := { s.w with interaction := [] } })) s
        else SimM.set (fun s => { s with w := { s.w with interaction := [] } }) s := by
      simp only [envInteraction, he]
    unfold Doing Does
    rw [hb]
    split
    · exact doing_bind (doing_succeed h h.1.env) fun _ s' h' _ _ => doing_plain hp h'
    · exact doing_plain hp h
  cases he : s.w.env with
  | some env => exact key env he
  | none =>
    have : envInteraction s = (s, .ok ()) := by simp [envInteraction, he]
    unfold Doing Does
    rw [this]
    exact ⟨h, full_refl s, by simp⟩

theorem plain_w (w : Mach) : Plain (fun s => { s with w := w }) := by plain

theorem doing_localRun {name : String} {o : Out Mach YV Unit} {p : ℕ} (h : Run s) (ho : o.Yields ModuleY) : Doing (localRun name o) s (WaitOk p) := by
  cases o with
  | yield w y k =>
    cases y with
    | ev e =>
      unfold localRun
      refine doing_bind (doing_plain (plain_w w) h) fun _ s1 h1 _ _ => ?_
      refine doing_bind (doing_get h1) fun now s2 h2 _ hn => ?_
      obtain ⟨rfl, rfl⟩ := hn
      have heq : s2.now + (e.time - round4 s2.now) = e.time := by rw [round4_onGrid h2.2]; ring
      refine doing_bind (doing_timeout h2 fun _ => by rw [heq]; exact ho.1.1) fun t s3 h3 _ ht => ?_
      rw [heq] at ht
      exact doing_pure h3 ⟨⟨ho.1.1, ht.1, fun w => yields_mono (fun _ => moduleY_grid) (ho.2 w)⟩, ht.2, ho.1.2, ho.2⟩
    | cont d => exact doing_bind (doing_plain (plain_w w) h) fun _ s1 h1 _ _ => doing_pure h1 trivial
    | procs => exact doing_bind (doing_plain (plain_w w) h) fun _ s1 h1 _ _ => doing_pure h1 trivial
    | nothing => exact doing_bind (doing_plain (plain_w w) h) fun _ s1 h1 _ _ => doing_pure h1 trivial
  | ret w r => exact doing_bind (doing_plain (plain_w w) h) fun _ s1 h1 _ _ => doing_pure h1 trivial
  | raise w x => exact doing_bind (doing_plain (plain_w w) h) fun _ s1 h1 _ _ => doing_throw h1


theorem doing_renew {name : String} (h : Run s) : Doing (renewActivate name) s (fun s' a => Quiet s' a) := by
  unfold renewActivate
  refine doing_bind (doing_newEvent h) fun a s1 h1 _ hq => ?_
  refine doing_bind (doing_setActivate h1 hq) fun _ s2 h2 _ he => ?_
  exact doing_pure h2 (by subst he; exact hq)

theorem doing_extraLoop (C : Cfg) {name : String} {p : ℕ} (h : Run s) : Doing (extraLoop C name) s (WaitOk p) := by
  unfold extraLoop
  refine doing_bind (doing_get h) fun l s1 h1 _ hl => ?_
  split
  · exact doing_throw h1
  · refine doing_bind (doing_plain (by plain) h1) fun _ s2 h2 _ _ => ?_
    refine doing_bind (doing_activateOf h2) fun a s3 h3 _ ha => ?_
    obtain ⟨rfl, ha⟩ := ha
    refine doing_bind (doing_get h3) fun gone s4 h4 _ hg => ?_
    obtain ⟨rfl, _⟩ := hg
    split
    · refine doing_bind (doing_renew h4) fun a' s5 h5 _ hq => ?_
      exact doing_pure h5 ⟨trivial, hq.2.2, trivial⟩
    · exact doing_pure h4 ⟨trivial, ha.2.2, trivial⟩
  · rename_i d rest _
    refine doing_bind (doing_plain (by plain) h1) fun _ s2 h2 _ _ => ?_
    refine doing_bind (doing_activateOf h2) fun a s3 h3 _ ha => ?_
    obtain ⟨rfl, ha⟩ := ha
    refine doing_bind (doing_get h3) fun gone s4 h4 _ hg => ?_
    obtain ⟨rfl, _⟩ := hg
    have hrest : ∀ s5, Run s5 → Doing (do
        let pro ← process (.localNew name (d.run C))
        pure (.wait pro (.extraMain name pro)) : SimM Res) s5 (WaitOk p) := fun s5 h5 =>
      doing_bind (doing_process h5 (fun s ev w => yields_mono (fun _ => moduleY_grid) (moduleY_run C d w)) rfl fun w => moduleY_run C d w) fun pro s6 h6 _ hp =>
        doing_pure h6 ⟨rfl, hp, trivial⟩
    split
    · exact hrest _ h4
    · exact doing_bind (doing_succeed h4 ha) fun _ s5 h5 _ _ => hrest s5 h5

theorem doing_extraAfterMain (C : Cfg) {name : String} {pro p : ℕ} {x : Except PyErr SVal} (h : Run s) : Doing (extraAfterMain C name pro x) s (WaitOk p) := by
  rcases x with x | v
  · by_cases hx : x = .interrupt
    · subst hx
      unfold extraAfterMain
      refine doing_bind (doing_get h) fun over s1 h1 _ hg => ?_
      obtain ⟨rfl, _⟩ := hg
      split
      · exact doing_extraLoop C h1
      · exact doing_bind (doing_interrupt h1) fun _ s5 h5 _ _ => doing_extraLoop C h5
    · have : extraAfterMain C name pro (.error x) = .throw x := by cases x <;> first | rfl | exact absurd rfl hx
      rw [this]; exact doing_throw h
  · cases v with
    | cont d =>
      unfold extraAfterMain
      exact doing_bind (doing_process h (fun s ev w => yields_mono (fun _ => moduleY_grid) (moduleY_run C d w)) rfl fun w => moduleY_run C d w) fun pro s6 h6 _ hp =>
        doing_pure h6 ⟨trivial, hp, trivial⟩
    | nothing => exact doing_extraLoop C h
    | procs => exact doing_extraLoop C h

theorem doing_extraAfterCont (C : Cfg) {name : String} {p : ℕ} {x : Except PyErr SVal} (h : Run s) : Doing (extraAfterCont C name x) s (WaitOk p) := by
  rcases x with x | v
  · by_cases hx : x = .interrupt
    · subst hx; exact doing_extraLoop C h
    · have : extraAfterCont C name (.error x) = .throw x := by cases x <;> first | rfl | exact absurd rfl hx
      rw [this]; exact doing_throw h
  · exact doing_extraLoop C h

theorem doing_interruptExtra {name : String} (h : Run s) : Doing (interruptExtra name) s (fun _ _ => True) := by
  unfold Doing Does interruptExtra
  cases alook name s.extra with
  | none => exact ⟨h, full_refl s, by simp⟩
  | some p => exact doing_interrupt h

theorem doing_notify {x : PItem} (h : Run s) : Doing (notify x) s (fun _ _ => True) := by
  cases x with
  | procedural => exact doing_throw h
  | gen name i d =>
    unfold notify
    refine doing_bind (doing_activateOf h) fun a s1 h1 _ ha => ?_
    obtain ⟨rfl, ha⟩ := ha
    refine doing_bind (doing_get h1) fun busy s2 h2 _ hg => ?_
    obtain ⟨rfl, _⟩ := hg
    split
    · refine doing_bind (doing_get h2) fun old s3 h3 _ hg => ?_
      obtain ⟨rfl, _⟩ := hg
      split
      · exact doing_pure h3 trivial
      · split
        · exact doing_pure h3 trivial
        · exact doing_bind (doing_plain (by plain) h3) fun _ s4 h4 _ _ => doing_interruptExtra h4
    · split
      · exact doing_bind (doing_plain (by plain) h2) fun _ s4 h4 hf _ => doing_succeed h4 (mild_quiet hf.1 ha)
      · exact doing_succeed h2 ha

theorem doing_notifyAll : ∀ (l : List PItem) {s : Sim}, Run s → Doing (notifyAll l) s (fun _ _ => True)
  | [], _, h => doing_pure h trivial
  | x :: r, _, h => doing_bind (doing_notify h) fun _ _ h' _ _ => doing_notifyAll r h'

/-- Where the process of the rules waits between cycles. -/
def Pt.resting : Pt → Prop
  | .procIdle => True
  | .procSpin _ => True
  | _ => False

/-- The process of the rules waits for the next cycle. -/
def RestOk (s : Sim) (r : Res) : Prop := WaitOk 2 s r ∧ ∃ ev pt, r = .wait ev pt ∧ pt.resting

theorem doing_procSpins {n : ℕ} (h : Run s) : Doing (procSpins n) s RestOk := by
  unfold procSpins
  refine doing_bind (doing_timeout h fun _ => by rw [add_zero]; exact h.2) fun t s1 h1 _ ht => ?_
  exact doing_pure h1 ⟨⟨trivial, ht.2, rfl⟩, _, _, rfl, trivial⟩

theorem doing_procLoop (h : Run s) : Doing procLoop s RestOk := by
  unfold procLoop
  refine doing_bind (doing_get h) fun l s1 h1 _ hg => ?_
  obtain ⟨rfl, _⟩ := hg
  split
  · refine doing_bind (doing_plain (by plain) h1) fun _ s2 h2 _ _ => ?_
    refine doing_bind (doing_get h2) fun l s3 h3 _ hg => ?_
    exact doing_bind (doing_notifyAll l h3) fun _ s4 h4 _ _ => doing_procSpins h4
  · refine doing_bind (doing_get h1) fun a s2 h2 _ hg => ?_
    obtain ⟨rfl, rfl⟩ := hg
    refine doing_bind (doing_get h2) fun gone s3 h3 _ hg => ?_
    obtain ⟨rfl, _⟩ := hg
    split
    · exact doing_procSpins h3
    · exact doing_pure h3 ⟨⟨trivial, h3.1.proc.2.2, rfl⟩, _, _, rfl, trivial⟩

theorem doing_procsReturned {v : SVal} (h : Run s) : Doing (procsReturned v) s (fun _ _ => v = .procs) := by
  cases v with
  | procs => exact does_mono (doing_plain (by plain) h) fun _ _ _ _ _ => rfl
  | nothing => exact doing_throw h
  | cont d => exact doing_throw h

theorem envEv_act (e : EnvEvent) : ¬ Cyclic e.ev.act := by
  unfold EnvEvent.ev
  cases e.2 <;> exact fun h => h

theorem doing_envIter {e : EnvEvent} {k : Mach → Out Mach EnvEvent Unit} {p : ℕ} (h : Run s) (he : OnGrid e.1) (hk : ∀ w, (k w).Yields (fun e => OnGrid e.1)) :
    Doing (envIter e k) s (WaitOk p) := by
  unfold envIter
  refine doing_bind (doing_process h (fun _ _ => he) rfl (envEv_act e)) fun pro s1 h1 _ _ => ?_
  refine doing_bind (doing_get h1) fun a s2 h2 _ _ => ?_
  exact doing_bind (doing_anyOf h2) fun c s3 h3 _ hc => doing_pure h3 ⟨hk, hc, trivial⟩

theorem doing_w {B : Type} {m : SimM B} {Q : Sim → B → Prop} (w : Mach) (hm : ∀ s', Run s' → Doing m s' Q) (h : Run s) :
    Run (m { s with w := w }).1 ∧ Full s (m { s with w := w }).1 ∧ ∀ a, (m { s with w := w }).2 = .ok a → Q (m { s with w := w }).1 a := by
  obtain ⟨h1, h2⟩ := full_plain (plain_w w) h
  obtain ⟨a, b, c⟩ := hm _ h1
  exact ⟨a, full_trans _ _ _ h2 b, c⟩

theorem doing_envStart (C : Cfg) {p : ℕ} (h : Run s) : Doing (envStart C) s (WaitOk p) := by
  cases ha : s.envArgs with
  | none =>
    have : envStart C s = (s, .error .type) := by simp only [envStart, ha]
    unfold Doing Does; rw [this]; exact ⟨h, full_refl s, by simp⟩
  | some a =>
    have hy := gridY_env (fun env (w : Mach) => { w with env := some env }) envOf C.upper a.stimuli a.triggers a.times a.startTime s.w
    rcases ho : envProcess (fun env (w : Mach) => { w with env := some env }) envOf C.upper a.stimuli a.triggers a.times a.startTime s.w with ⟨w, e, k⟩ | ⟨w, r⟩ | ⟨w, x⟩
    · rw [ho] at hy
      have : envStart C s = envIter e k { s with w := w } := by simp only [envStart, ha, ho]
      unfold Doing Does; rw [this]
      exact doing_w w (fun s' h' => doing_envIter h' hy.1 hy.2) h
    · have : envStart C s = (SimM.throw .runtime : SimM Res) { s with w := w } := by simp only [envStart, ha, ho]; rfl
      unfold Doing Does; rw [this]
      exact doing_w w (fun s' h' => doing_throw h') h
    · have : envStart C s = (SimM.throw x : SimM Res) { s with w := w } := by simp only [envStart, ha, ho]; rfl
      unfold Doing Does; rw [this]
      exact doing_w w (fun s' h' => doing_throw h') h

theorem doing_startAutomatic {name : String} {i : ℕ} {d : Desc} (h : Run s) : Doing (startAutomatic name i d) s (fun _ _ => True) := by
  refine doing_bind (doing_plain (by plain) h) fun _ s2 h2 _ _ => ?_
  refine doing_bind (doing_activateOf h2) fun a s3 h3 _ ha => ?_
  obtain ⟨rfl, ha⟩ := ha
  refine doing_bind (doing_get h3) fun busy s4 h4 _ hg => ?_
  obtain ⟨rfl, _⟩ := hg
  split
  · refine doing_bind (doing_get h4) fun old s5 h5 _ hg => ?_
    obtain ⟨rfl, _⟩ := hg
    split
    · exact doing_throw h5
    · exact doing_bind (doing_plain (by plain) h5) fun _ s6 h6 _ _ => doing_interruptExtra h6
  · exact doing_bind (doing_plain (by plain) h4) fun _ s6 h6 hf _ => doing_succeed h6 (mild_quiet hf.1 ha)

theorem doing_automatic {name : String} (h : Run s) : Doing (automatic name) s (fun _ _ => True) := by
  cases hb : s.w.buf name with
  | none =>
    have : automatic name s = (s, .ok ()) := by simp only [automatic, hb]
    unfold Doing Does; rw [this]; exact ⟨h, full_refl s, by simp⟩
  | some b =>
    cases hd : automaticFor name b s.w.onScreen s.now with
    | none =>
      have : automatic name s = (s, .ok ()) := by simp only [automatic, hb, hd]
      unfold Doing Does; rw [this]; exact ⟨h, full_refl s, by simp⟩
    | some d =>
      have : automatic name s = startAutomatic name s.w.nextId d { s with w := { s.w with nextId := s.w.nextId + 1 } } := by simp only [automatic, hb, hd]
      unfold Doing Does; rw [this]
      exact doing_w _ (fun s' h' => doing_startAutomatic h') h

theorem doing_automaticAll : ∀ (l : List String) {s : Sim}, Run s → Doing (automaticAll l) s (fun _ _ => True)
  | [], _, h => doing_pure h trivial
  | _ :: r, _, h => doing_bind (doing_automatic h) fun _ _ h' _ _ => doing_automaticAll r h'

theorem doing_envNext {pro : ℕ} (h : Run s) : Doing (envNext pro) s (fun _ _ => True) := by
  unfold envNext
  refine doing_bind (doing_get h) fun a s1 h1 _ _ => ?_
  refine doing_bind (doing_get h1) fun pressed s2 h2 _ _ => ?_
  split
  · refine doing_bind (doing_newEvent h2) fun a' s3 h3 _ hq => ?_
    exact doing_bind (doing_setEnv h3 hq) fun _ s4 h4 _ _ => doing_interrupt h4
  · exact doing_pure h2 trivial

theorem doing_envAdvance {k : Mach → Out Mach EnvEvent Unit} {p : ℕ} (h : Run s) (hk : ∀ w, (k w).Yields (fun e => OnGrid e.1)) :
    Doing (envAdvance k) s (WaitOk p) := by
  have hy := hk s.w
  rcases ho : k s.w with ⟨w, e, k'⟩ | ⟨w, r⟩ | ⟨w, x⟩
  · rw [ho] at hy
    have : envAdvance k s = (do automaticAll (w.bufs.map Prod.fst); envIter e k' : SimM Res) { s with w := w } := by simp only [envAdvance, ho]
    unfold Doing Does; rw [this]
    exact doing_w w (fun s' h' => doing_bind (doing_automaticAll _ h') fun _ s2 h2 _ _ => doing_envIter h2 hy.1 hy.2) h
  · have : envAdvance k s = (pure (.done .nothing) : SimM Res) { s with w := w } := by simp only [envAdvance, ho]; rfl
    unfold Doing Does; rw [this]
    exact doing_w w (fun s' h' => doing_pure h' trivial) h
  · have : envAdvance k s = (SimM.throw x : SimM Res) { s with w := w } := by simp only [envAdvance, ho]; rfl
    unfold Doing Does; rw [this]
    exact doing_w w (fun s' h' => doing_throw h') h

theorem doing_envProcStart {e : Ev} {p : ℕ} (h : Run s) (he : OnGrid e.time) (hc : ¬ Cyclic e.act) : Doing (envProcStart e) s (WaitOk p) := by
  have heq : s.now + (e.time - s.now) = e.time := by ring
  obtain ⟨h1, h2, h3⟩ := doing_timeout (d := e.time - s.now) h fun _ => by rw [heq]; exact he
  rw [heq] at h3
  unfold Doing Does envProcStart
  rcases ht : timeout (e.time - s.now) s with ⟨s1, x | t⟩
  · rw [ht] at h1 h2
    obtain ⟨a, b, c⟩ : Doing (do activateProc e; .throw x : SimM Res) s1 (WaitOk p) :=
      doing_bind (doing_activateProc h1) fun _ s2 h2 _ _ => doing_throw h2
    exact ⟨a, full_trans _ _ _ h2 b, c⟩
  · rw [ht] at h1 h2 h3
    refine ⟨h1, h2, fun a ha => ?_⟩
    simp only [Except.ok.injEq] at ha
    subst ha
    obtain ⟨ht, hn⟩ := h3 t rfl
    exact ⟨⟨he, ht⟩, hn, hc⟩

theorem doing_envProcResume {e : Ev} {p : ℕ} {x : Except PyErr SVal} (h : Run s) (hx : ∀ v, x = .ok v → e.time = s.now) (hc : ¬ Cyclic e.act) :
    Doing (envProcResume e x) s (WaitOk p) := by
  rcases x with x | v
  · by_cases hi : x = .interrupt
    · subst hi
      exact doing_bind (doing_activateProc h) fun _ s1 h1 _ _ => doing_pure h1 trivial
    · have : envProcResume e (.error x) = (do activateProc e; .throw x : SimM Res) := by cases x <;> first | rfl | exact absurd rfl hi
      rw [this]
      exact doing_bind (doing_activateProc h) fun _ s1 h1 _ _ => doing_throw h1
  · exact doing_bind (doing_print h (hx v rfl) hc) fun _ s1 h1 _ _ => doing_bind (doing_activateProc h1) fun _ s2 h2 _ _ => doing_pure h2 trivial

/-- What a module process does after its event has been reported. -/
theorem doing_afterPrint {name : String} {e : Ev} {k : Mach → Out Mach YV Unit} {p : ℕ} (h : Run s) (hk : ∀ w, (k w).Yields ModuleY) :
    Doing (do activateProc e; envInteraction; let w ← SimM.get Sim.w; localRun name (k w) : SimM Res) s (WaitOk p) :=
  doing_bind (doing_activateProc h) fun _ s1 h1 _ _ => doing_bind (doing_envInteraction h1) fun _ s2 h2 _ _ =>
    doing_bind (doing_get h2) fun w s3 h3 _ _ => doing_localRun h3 (hk w)

theorem doing_localResume {name : String} {e : Ev} {k : Mach → Out Mach YV Unit} {p : ℕ} {x : Except PyErr SVal} (h : Run s)
    (hx : ∀ v, x = .ok v → e.time = s.now) (hc : ¬ Cyclic e.act) (hk : ∀ w, (k w).Yields ModuleY) : Doing (localResume name e k x) s (WaitOk p) := by
  rcases x with x | v
  · by_cases hi : x = .interrupt
    · subst hi; exact doing_pure h trivial
    · have : localResume name e k (.error x) = .throw x := by cases x <;> first | rfl | exact absurd rfl hi
      rw [this]; exact doing_throw h
  · exact doing_bind (doing_print h (hx v rfl) hc) fun _ s1 h1 _ _ => doing_afterPrint h1 hk

/-- The process of the rules, where it has waited for a cycle or for the next one. -/
theorem doing_main (C : Cfg) {pt : Pt} {x : Except PyErr SVal} (h : Run s) (hmod : pt = .procFirst ∨ pt = .procAgain ∨ pt.resting)
    (hs : pt ≠ .procSpin 0) : Doing (code C pt x) s (fun s r => RestOk s r ∧ (pt.resting ∨ x = .ok .procs)) := by
  cases pt <;> simp only [Pt.resting, or_false, or_true, reduceCtorEq] at hmod ⊢
  · rcases x with x | v
    · exact doing_throw h
    · refine doing_bind (doing_procsReturned h) fun _ s1 h1 _ hv => does_mono (doing_procLoop h1) fun _ _ _ _ hq => ⟨hq, .inr (by rw [hv])⟩
  · rcases x with x | v
    · exact doing_throw h
    · exact does_mono (doing_procSpins h) fun _ _ _ _ hq => ⟨hq, .inl trivial⟩
  · rename_i n
    rcases x with x | v
    · exact doing_throw h
    · cases n with
      | zero => exact absurd rfl hs
      | succ n => exact does_mono (doing_procSpins h) fun _ _ _ _ hq => ⟨hq, .inl trivial⟩
  · rcases x with x | v
    · exact doing_throw h
    · refine doing_bind (doing_procsReturned h) fun _ s1 h1 _ hv => doing_bind (doing_newEvent h1) fun a s2 h2 _ hq => ?_
      refine doing_bind (doing_setProc h2 hq) fun _ s3 h3 _ _ => does_mono (doing_procLoop h3) fun _ _ _ _ hq => ⟨hq, .inr (by rw [hv])⟩

/-- The processes other than the one of the rules. -/
theorem doing_code (C : Cfg) {pt : Pt} {x : Except PyErr SVal} {p : ℕ} (h : Run s) {ev : ℕ} (hp : PtOk s ev pt) (hmod : Modular p pt)
    (hd : ∀ t v, pt.due = some t → x = .ok v → t = s.now) (hn : p ≠ 2) : Doing (code C pt x) s (WaitOk p) := by
  cases pt with
  | procNew => exact absurd hmod hn
  | procFirst => exact absurd hmod hn
  | procIdle => exact absurd hmod hn
  | procSpin n => exact absurd hmod hn
  | procAgain => exact absurd hmod hn
  | extraNew name =>
    rcases x with x | v
    · exact doing_throw h
    · exact doing_extraLoop C h
  | extraIdle name =>
    rcases x with x | v
    · exact doing_throw h
    · exact doing_bind (doing_renew h) fun _ s1 h1 _ _ => doing_extraLoop C h1
  | extraMain name pro => exact doing_extraAfterMain C h
  | extraCont name => exact doing_extraAfterCont C h
  | localNew name g =>
    rcases x with x | v
    · exact doing_throw h
    · exact doing_bind (doing_get h) fun w s1 h1 _ _ => doing_localRun h1 (hmod w)
  | localWait name e k => exact doing_localResume h (fun v hv => hd _ v rfl hv) hmod.1 hmod.2
  | envNew =>
    rcases x with x | v
    · exact doing_throw h
    · exact doing_envStart C h
  | envWait pro k =>
    rcases x with x | v
    · exact doing_throw h
    · exact doing_bind (doing_envNext h) fun _ s1 h1 _ _ => doing_envAdvance h1 hp
  | envProcNew e =>
    rcases x with x | v
    · exact doing_throw h
    · exact doing_envProcStart h hp hmod
  | envProc e => exact doing_envProcResume h (fun v hv => hd _ v rfl hv) hmod

end Verif
