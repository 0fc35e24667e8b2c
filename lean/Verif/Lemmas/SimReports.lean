import Verif.Lemmas.SimReach
/-! # How much is reported in one step -/
namespace Verif
open Verif.Spec

variable {rf : ℚ} {s s' : Sim} {p : ℕ} {A B : Type}

/-! ## Code that reports nothing -/

/-- Nothing is reported, and nobody new waits until an event is due. -/
structure Hush (s s' : Sim) : Prop where
  trace : s'.trace = s.trace
  next : s.next ≤ s'.next
  pts : ∀ p pt, s'.points p = some pt → pt.due.isSome → s.points p = some pt ∧ s'.target p = s.target p

theorem hush_refl (s : Sim) : Hush s s := ⟨rfl, le_rfl, fun _ _ h _ => ⟨h, rfl⟩⟩

theorem hush_trans {a b c : Sim} (h1 : Hush a b) (h2 : Hush b c) : Hush a c :=
  ⟨h2.trace.trans h1.trace, h1.next.trans h2.next, fun p pt h hd =>
    ⟨(h1.pts p pt (h2.pts p pt h hd).1 hd).1, (h2.pts p pt h hd).2.trans (h1.pts p pt (h2.pts p pt h hd).1 hd).2⟩⟩

/-- A piece of code reports nothing. -/
def Hushed (m : SimM A) : Prop := ∀ s, Hush s (m s).1

/-- The code of a process that reports nothing; if the process then waits until an event is due, it does so in a new way. -/
def HushedRes (m : SimM Res) : Prop := ∀ s, Hush s (m s).1 ∧ ∀ ev pt, (m s).2 = .ok (.wait ev pt) → pt.due.isSome → s.next ≤ ev

theorem hushed_bind {m : SimM A} {f : A → SimM B} (hm : Hushed m) (hf : ∀ a, Hushed (f a)) : Hushed (m >>= f) := by
  intro s
  show Hush s (SimM.bind m f s).1
  unfold SimM.bind
  have h1 := hm s
  rcases h : m s with ⟨s1, e | a⟩
  · rw [h] at h1; exact h1
  · rw [h] at h1; exact hush_trans h1 (hf a s1)

theorem hushed_bindRes {m : SimM A} {f : A → SimM Res} (hm : Hushed m) (hf : ∀ a, HushedRes (f a)) : HushedRes (m >>= f) := by
  intro s
  show Hush s (SimM.bind m f s).1 ∧ ∀ ev pt, (SimM.bind m f s).2 = .ok (.wait ev pt) → pt.due.isSome → s.next ≤ ev
  unfold SimM.bind
  have h1 := hm s
  rcases h : m s with ⟨s1, e | a⟩
  · rw [h] at h1; exact ⟨h1, by simp⟩
  · rw [h] at h1
    exact ⟨hush_trans h1 (hf a s1).1, fun ev pt h hd => h1.next.trans ((hf a s1).2 ev pt h hd)⟩

theorem hushed_pure {a : A} : Hushed (pure a) := fun s => hush_refl s
theorem hushed_throw {e : PyErr} : Hushed (SimM.throw e : SimM A) := fun s => hush_refl s
theorem hushed_get {f : Sim → A} : Hushed (SimM.get f) := fun s => hush_refl s
theorem hushed_wait {ev : ℕ} {pt : Pt} (h : pt.due = Option.none) : HushedRes (pure (.wait ev pt)) := fun s =>
  ⟨hush_refl s, fun _ _ he hd => by cases he; rw [h] at hd; cases hd⟩
theorem hushed_done {v : SVal} : HushedRes (pure (.done v)) := fun s => ⟨hush_refl s, fun _ _ he => by cases he⟩
theorem hushed_throwRes {e : PyErr} : HushedRes (SimM.throw e) := fun s => ⟨hush_refl s, fun _ _ he => by cases he⟩

/-- Assignments to attributes other than these. -/
theorem hushed_set {f : Sim → Sim} (h : ∀ s : Sim, (f s).trace = s.trace ∧ (f s).next = s.next ∧ (f s).points = s.points ∧ (f s).target = s.target) : Hushed (SimM.set f) := fun s =>
  ⟨(h s).1, (h s).2.1.ge, fun p pt hp _ => by
    have h1 : (f s).points = s.points := (h s).2.2.1
    have h2 : (f s).target = s.target := (h s).2.2.2
    have hp : (f s).points p = some pt := hp
    rw [h1] at hp
    exact ⟨hp, by show (f s).target p = _; rw [h2]⟩⟩

theorem hushed_newEvent : Hushed newEvent := fun _ => ⟨rfl, Nat.le_succ _, fun _ _ h _ => ⟨h, rfl⟩⟩

theorem hush_trigger (s : Sim) (ev : ℕ) (v : Except PyErr SVal) : Hush s (s.trigger ev v) := ⟨rfl, le_rfl, fun _ _ h _ => ⟨h, rfl⟩⟩

theorem hushed_succeed {ev : ℕ} : Hushed (succeed ev) := fun s => by
  unfold succeed
  split
  · exact hush_refl s
  · exact hush_trigger s ev _

theorem hushed_timeout {d : ℚ} : Hushed (timeout d) := fun s => by
  unfold timeout
  split
  · exact hush_refl s
  · exact ⟨rfl, Nat.le_succ _, fun _ _ h _ => ⟨h, rfl⟩⟩

theorem timeout_late {d : ℚ} {t : ℕ} (h : (timeout d s).2 = .ok t) : t = s.next := by
  unfold timeout at h
  split at h <;> cases h
  rfl

theorem hushed_timed {d : ℚ} {pt : ℕ → Pt} : HushedRes (do let t ← timeout d; pure (.wait t (pt t))) := fun s => by
  show Hush s (SimM.bind (timeout d) (fun t => pure (Res.wait t (pt t))) s).1 ∧ ∀ ev pt', (SimM.bind (timeout d) (fun t => pure (Res.wait t (pt t))) s).2 = .ok (.wait ev pt') → pt'.due.isSome → s.next ≤ ev
  unfold SimM.bind
  have h1 := hushed_timeout (d := d) s
  rcases h : timeout d s with ⟨s1, e | t⟩
  · rw [h] at h1; exact ⟨h1, by simp⟩
  · rw [h] at h1
    have ht : t = s.next := timeout_late (by rw [h])
    exact ⟨h1, fun ev pt' he _ => by cases he; exact ht.ge⟩

theorem hushed_process {pt : Pt} (h : pt.due = Option.none) : Hushed (process pt) := fun s => by
  refine ⟨rfl, by show s.next ≤ s.next + 1 + 1; omega, fun p pt' hp hd => ?_⟩
  have hp : fset s.points s.next (some pt) p = some pt' := hp
  by_cases he : p = s.next
  · subst he; rw [fset_same] at hp; cases hp; rw [h] at hd; cases hd
  · rw [fset_other _ _ he] at hp
    exact ⟨hp, fset_other _ _ he⟩

theorem hushed_interrupt {q : ℕ} : Hushed (interruptProcess q) := fun s => by
  unfold interruptProcess
  split
  · exact hush_refl s
  · exact ⟨rfl, Nat.le_succ _, fun _ _ h _ => ⟨h, rfl⟩⟩

theorem hush_addCallback (s : Sim) (ev : ℕ) (c : Callback) : Hush s (s.addCallback ev c) := ⟨rfl, le_rfl, fun _ _ h _ => ⟨h, rfl⟩⟩

theorem hushed_anyOf {a b : ℕ} : Hushed (anyOf a b) := fun s => by
  have key : ∀ (c ev : ℕ) (s : Sim), Hush s (if s.processed ev then (if s.triggered c then s else s.trigger c (.ok .nothing)) else s.addCallback ev (.check c)) := fun c ev s => by
    split
    · split
      · exact hush_refl s
      · exact hush_trigger s _ _
    · exact hush_addCallback s _ _
  have h0 : Hush s (s.alloc ⟨Option.none, false, some [.build s.next a b]⟩) := ⟨rfl, Nat.le_succ _, fun _ _ h _ => ⟨h, rfl⟩⟩
  exact hush_trans (hush_trans h0 (key _ _ _)) (key _ _ _)

theorem hushed_activateOf {name : String} : Hushed (activateOf name) := fun s => by
  unfold activateOf
  cases alook name s.activate <;> exact hush_refl s

theorem hushed_interruptExtra {name : String} : Hushed (interruptExtra name) := fun s => by
  unfold interruptExtra
  cases alook name s.extra with
  | none => exact hush_refl s
  | some p => exact hushed_interrupt s

theorem hushed_ite {b : Prop} [Decidable b] {m m' : SimM A} (h : Hushed m) (h' : Hushed m') : Hushed (if b then m else m') := by split <;> assumption
theorem hushed_iteRes {b : Prop} [Decidable b] {m m' : SimM Res} (h : HushedRes m) (h' : HushedRes m') : HushedRes (if b then m else m') := by split <;> assumption

macro "hushset" : tactic => `(tactic| (refine hushed_set fun _ => ?_; first | exact ⟨rfl, rfl, rfl, rfl⟩ | (dsimp only [Sim.setStarted]; split <;> exact ⟨rfl, rfl, rfl, rfl⟩)))

macro "hush" : tactic => `(tactic| repeat' with_reducible first
  | assumption
  | exact hushed_pure | exact hushed_throw | exact hushed_get | exact hushed_newEvent | exact hushed_succeed | exact hushed_activateOf | exact hushed_interruptExtra
  | exact hushed_interrupt | exact hushed_anyOf | exact hushed_process rfl | exact hushed_wait rfl | exact hushed_done | exact hushed_throwRes | exact hushed_timed
  | hushset
  | refine hushed_ite ?_ ?_ | refine hushed_iteRes ?_ ?_
  | refine hushed_bindRes ?_ fun _ => ?_ | refine hushed_bind ?_ fun _ => ?_)

theorem hushed_activateProc {e : Ev} : Hushed (activateProc e) := by
  have key : Hushed (fun s => if s.triggered s.procActivate then (s, .ok ()) else succeed s.procActivate s : SimM Unit) := fun s => by
    dsimp only
    split
    · exact hush_refl s
    · exact hushed_succeed s
  rcases activateProc_cases e with hp | hp <;> rw [hp]
  · exact hushed_pure
  · exact key

theorem hushed_envInteraction : Hushed envInteraction := fun s => by
  unfold envInteraction
  have h0 : Hushed (SimM.set (fun s => { s with w := { s.w with interaction := [] } })) := by hushset
  cases s.w.env with
  | none => exact hush_refl s
  | some env =>
    dsimp only
    split
    · exact hushed_bind (hushed_succeed (ev := s.envActivate)) (fun _ => h0) s
    · exact h0 s

theorem hushed_localRun {name : String} {o : Out Mach YV Unit} : HushedRes (localRun name o) := by
  cases o with
  | yield w y k => cases y <;> (unfold localRun; hush)
  | ret w r => unfold localRun; hush
  | raise w x => unfold localRun; hush

theorem hushed_renew {name : String} : Hushed (renewActivate name) := by unfold renewActivate; hush

theorem hushed_extraLoop (C : Cfg) {name : String} : HushedRes (extraLoop C name) := by
  have hr := hushed_renew (name := name)
  unfold extraLoop
  refine hushed_bindRes hushed_get fun l => ?_
  split <;> hush

theorem hushed_extraAfterMain (C : Cfg) {name : String} {pro : ℕ} {x : Except PyErr SVal} : HushedRes (extraAfterMain C name pro x) := by
  have hr := hushed_extraLoop C (name := name)
  unfold extraAfterMain
  split <;> hush

theorem hushed_extraAfterCont (C : Cfg) {name : String} {x : Except PyErr SVal} : HushedRes (extraAfterCont C name x) := by
  have hr := hushed_extraLoop C (name := name)
  unfold extraAfterCont
  split <;> hush

theorem hushed_notify {x : PItem} : Hushed (notify x) := by
  cases x with
  | procedural => exact hushed_throw
  | gen name i d =>
    unfold notify
    refine hushed_bind hushed_activateOf fun a => hushed_bind hushed_get fun busy => ?_
    split
    · refine hushed_bind hushed_get fun old => ?_
      split <;> hush
    · hush

theorem hushed_notifyAll : ∀ l : List PItem, Hushed (notifyAll l)
  | [] => hushed_pure
  | _ :: r => hushed_bind hushed_notify fun _ => hushed_notifyAll r

theorem hushed_procSpins {n : ℕ} : HushedRes (procSpins n) := by unfold procSpins; hush

theorem hushed_procLoop : HushedRes procLoop := by
  have h1 := fun l => hushed_notifyAll l
  have h2 := fun n => hushed_procSpins (n := n)
  unfold procLoop
  refine hushed_bindRes hushed_get fun l => hushed_iteRes (hushed_bindRes (by hushset) fun _ => hushed_bindRes hushed_get fun l => hushed_bindRes (h1 l) fun _ => h2 4) ?_
  exact hushed_bindRes hushed_get fun a => hushed_bindRes hushed_get fun g => hushed_iteRes (h2 4) (hushed_wait rfl)

theorem hushed_procsReturned {v : SVal} : Hushed (procsReturned v) := by
  unfold procsReturned
  split <;> hush

theorem hushed_procCycle (C : Cfg) {pt : Pt} (h : pt.due = Option.none) : HushedRes (procCycle C pt) := by
  unfold procCycle
  exact hushed_bindRes hushed_get fun now => hushed_bindRes (hushed_process rfl) fun _ => hushed_wait h

theorem hushed_envIter {e : EnvEvent} {k : Mach → Out Mach EnvEvent Unit} : HushedRes (envIter e k) := by unfold envIter; hush

theorem hush_w (s : Sim) (w : Mach) : Hush s { s with w := w } := ⟨rfl, le_rfl, fun _ _ h _ => ⟨h, rfl⟩⟩

/-- Setting the world before a piece of code. -/
theorem hushed_w {m : SimM Res} (h : HushedRes m) (w : Mach) (s : Sim) :
    Hush s (m { s with w := w }).1 ∧ ∀ ev pt, (m { s with w := w }).2 = .ok (.wait ev pt) → pt.due.isSome → s.next ≤ ev :=
  ⟨hush_trans (hush_w s w) (h { s with w := w }).1, (h { s with w := w }).2⟩

theorem hushed_envStart (C : Cfg) : HushedRes (envStart C) := fun s => by
  cases ha : s.envArgs with
  | none =>
    have : envStart C s = (s, .error .type) := by simp only [envStart, ha]
    rw [this]; exact ⟨hush_refl s, by simp⟩
  | some a =>
    rcases ho : envProcess (fun env (w : Mach) => { w with env := some env }) envOf C.upper a.stimuli a.triggers a.times a.startTime s.w with ⟨w, e, k⟩ | ⟨w, r⟩ | ⟨w, x⟩
    · have : envStart C s = envIter e k { s with w := w } := by simp only [envStart, ha, ho]
      rw [this]; exact hushed_w hushed_envIter w s
    · have : envStart C s = (SimM.throw .runtime : SimM Res) { s with w := w } := by simp only [envStart, ha, ho]; rfl
      rw [this]; exact hushed_w hushed_throwRes w s
    · have : envStart C s = (SimM.throw x : SimM Res) { s with w := w } := by simp only [envStart, ha, ho]; rfl
      rw [this]; exact hushed_w hushed_throwRes w s

theorem hushed_startAutomatic {name : String} {i : ℕ} {d : Desc} : Hushed (startAutomatic name i d) := by
  unfold startAutomatic
  refine hushed_bind (by hushset) fun _ => hushed_bind hushed_activateOf fun a => hushed_bind hushed_get fun busy => ?_
  split
  · refine hushed_bind hushed_get fun old => ?_
    split <;> hush
  · hush

theorem hushed_automatic {name : String} : Hushed (automatic name) := fun s => by
  unfold automatic
  split
  · exact hush_refl s
  · split
    · exact hush_refl s
    · exact hush_trans (hush_w s _) (hushed_startAutomatic _)

theorem hushed_automaticAll : ∀ l : List String, Hushed (automaticAll l)
  | [] => hushed_pure
  | _ :: r => hushed_bind hushed_automatic fun _ => hushed_automaticAll r

theorem hushed_envNext {pro : ℕ} : Hushed (envNext pro) := by unfold envNext; hush

theorem hushed_envAdvance {k : Mach → Out Mach EnvEvent Unit} : HushedRes (envAdvance k) := fun s => by
  unfold envAdvance
  split
  · exact hushed_w (hushed_done (v := .nothing)) _ s
  · rename_i x _; exact hushed_w (hushed_throwRes (e := x)) _ s
  · exact hushed_w (hushed_bindRes (hushed_automaticAll _) fun _ => hushed_envIter) _ s

theorem hushed_envProcStart {e : Ev} : HushedRes (envProcStart e) := fun s => by
  unfold envProcStart
  have h1 := hushed_timeout (d := e.time - s.now) s
  split
  · rename_i s1 t h
    rw [h] at h1
    have ht : t = s.next := timeout_late (by rw [h])
    exact ⟨h1, fun ev pt' he _ => by cases he; exact ht.ge⟩
  · rename_i s1 x h
    rw [h] at h1
    have h2 := hushed_bindRes (hushed_activateProc (e := e)) (fun _ => hushed_throwRes (e := x)) s1
    exact ⟨hush_trans h1 h2.1, fun ev pt he hd => h1.next.trans (h2.2 ev pt he hd)⟩

/-! ## One process -/

/-- A process that does not wait until an event is due, or is interrupted, reports nothing. -/
theorem hushed_code (C : Cfg) {pt : Pt} {x : Except PyErr SVal} (h : pt.due = Option.none ∨ ∃ e, x = .error e) : HushedRes (code C pt x) := by
  unfold code
  split
  · exact hushed_procCycle C rfl
  · exact hushed_bindRes hushed_procsReturned fun _ => hushed_procLoop
  · exact hushed_procSpins
  · split
    · exact hushed_procCycle C rfl
    · exact hushed_procSpins
  · exact hushed_bindRes hushed_procsReturned fun _ => hushed_bindRes hushed_newEvent fun _ => hushed_bindRes (by hushset) fun _ => hushed_procLoop
  · exact hushed_extraLoop C
  · exact hushed_bindRes hushed_renew fun _ => hushed_extraLoop C
  · exact hushed_extraAfterMain C
  · exact hushed_extraAfterCont C
  · exact hushed_bindRes hushed_get fun w => hushed_localRun
  · obtain ⟨e, rfl⟩ := h.resolve_left (by simp [Pt.due])
    unfold localResume
    split
    · exact hushed_done
    · exact hushed_throwRes
    · rename_i h; cases h
  · exact hushed_envStart C
  · exact hushed_bindRes hushed_envNext fun _ => hushed_envAdvance
  · exact hushed_envProcStart
  · obtain ⟨e, rfl⟩ := h.resolve_left (by simp [Pt.due])
    unfold envProcResume
    split
    · exact hushed_bindRes hushed_activateProc fun _ => hushed_done
    · exact hushed_bindRes hushed_activateProc fun _ => hushed_throwRes
    · rename_i h; cases h
  · exact hushed_throwRes

/-- Up to one report, nothing is reported, and nobody new waits until an event is due. -/
structure Spoke (s s' : Sim) : Prop where
  trace : s'.trace = s.trace ∨ ∃ e : Ev, e.act ≠ .unknown ∧ s'.trace = s.trace ++ [(s.now, e)]
  next : s.next ≤ s'.next
  pts : ∀ p pt, s'.points p = some pt → pt.due.isSome → s.points p = some pt ∧ s'.target p = s.target p

theorem speaks_hush (h : Hush s s') : Spoke s s' := ⟨.inl h.trace, h.next, h.pts⟩

/-- The code of a process that reports one event before anything else. -/
theorem speaks_print {e : Ev} {f : Unit → SimM Res} (hf : ∀ a, HushedRes (f a)) (s : Sim) :
    Spoke s ((printEvent e >>= f) s).1 ∧ ∀ ev pt, ((printEvent e >>= f) s).2 = .ok (.wait ev pt) → pt.due.isSome → s.next ≤ ev := by
  have hs : ∀ s1, Spoke s s1 → s1.next = s.next → Spoke s (f () s1).1 ∧ ∀ ev pt, (f () s1).2 = .ok (.wait ev pt) → pt.due.isSome → s.next ≤ ev := fun s1 h1 hn => by
    obtain ⟨a, b⟩ := hf () s1
    refine ⟨⟨by rw [a.trace]; exact h1.trace, h1.next.trans a.next, fun p pt h hd => ?_⟩, fun ev pt h hd => hn ▸ b ev pt h hd⟩
    obtain ⟨h2, h3⟩ := a.pts p pt h hd
    exact ⟨(h1.pts p pt h2 hd).1, h3.trans (h1.pts p pt h2 hd).2⟩
  show Spoke s (SimM.bind (printEvent e) f s).1 ∧ ∀ ev pt, (SimM.bind (printEvent e) f s).2 = .ok (.wait ev pt) → pt.due.isSome → s.next ≤ ev
  rcases printEvent_cases e with ⟨_, hp⟩ | ⟨hu, hp⟩ <;> rw [hp]
  · exact hs s (speaks_hush (hush_refl s)) rfl
  · exact hs _ ⟨.inr ⟨e, hu, rfl⟩, le_rfl, fun _ _ h _ => ⟨h, rfl⟩⟩ rfl

theorem speaks_code (C : Cfg) (pt : Pt) (x : Except PyErr SVal) (s : Sim) :
    Spoke s (code C pt x s).1 ∧ ∀ ev pt', (code C pt x s).2 = .ok (.wait ev pt') → pt'.due.isSome → s.next ≤ ev := by
  by_cases h : pt.due = Option.none ∨ ∃ e, x = .error e
  · exact ⟨speaks_hush (hushed_code C h s).1, (hushed_code C h s).2⟩
  · push Not at h
    obtain ⟨v, rfl⟩ : ∃ v, x = .ok v := by
      rcases x with e | v
      · exact absurd rfl (h.2 e)
      · exact ⟨v, rfl⟩
    cases pt with
    | localWait name e k =>
      exact speaks_print (fun _ => hushed_bindRes hushed_activateProc fun _ => hushed_bindRes hushed_envInteraction fun _ => hushed_bindRes hushed_get fun w => hushed_localRun) s
    | envProc e => exact speaks_print (fun _ => hushed_bindRes hushed_activateProc fun _ => hushed_done) s
    | _ => exact absurd rfl h.1

/-! ## Nobody waits for the timeout of somebody else -/

/-- Two processes that wait until events are due do not wait for the same timeout. -/
def Apart (s : Sim) : Prop := ∀ p q pt pt', s.points p = some pt → s.points q = some pt' → pt.due.isSome → pt'.due.isSome → s.target p = s.target q → p = q

theorem apart_hush (h : Apart s) (hh : ∀ p pt, s'.points p = some pt → pt.due.isSome → s.points p = some pt ∧ s'.target p = s.target p) : Apart s' :=
  fun p q pt pt' hp hq hd hd' he => h p q pt pt' (hh p pt hp hd).1 (hh q pt' hq hd').1 hd hd' (by rw [← (hh p pt hp hd).2, ← (hh q pt' hq hd').2]; exact he)

theorem due_lt (h : Inv s) {pt : Pt} (hp : s.points p = some pt) (hd : pt.due.isSome) : s.target p < s.next := by
  obtain ⟨t, ht⟩ := Option.isSome_iff_exists.1 hd
  exact timed_lt h (ptOk_due (h.wait p pt hp) ht)

/-- Running one process. -/
theorem apart_resume (C : Cfg) {x : Except PyErr SVal} (hi : Inv s) (ha : Apart s) :
    Apart (s.resume C p x) ∧ ((s.resume C p x).trace = s.trace ∨ ∃ e : Ev, e.act ≠ .unknown ∧ (s.resume C p x).trace = s.trace ++ [(s.now, e)]) ∧
    ((∀ pt, s.points p = some pt → pt.due = Option.none) ∨ (∃ e, x = .error e) → (s.resume C p x).trace = s.trace) := by
  unfold Sim.resume
  cases hpt : s.points p with
  | none => exact ⟨ha, .inl rfl, fun _ => rfl⟩
  | some pt =>
    dsimp only
    obtain ⟨a, b⟩ := speaks_code C pt x s
    have hq : (∀ pt', some pt = some pt' → pt'.due = Option.none) ∨ (∃ e, x = .error e) → (code C pt x s).1.trace = s.trace := fun h =>
      (hushed_code C (h.imp_left fun h => h pt rfl) s).1.trace
    have hend : ∀ s1 v, s1 = (code C pt x s).1 → Apart (({ s1 with points := fset s1.points p Option.none } : Sim).trigger p v) := fun s1 v he => by
      subst he
      refine apart_hush ha fun q pt' hq hd => ?_
      have hq : fset (code C pt x s).1.points p Option.none q = some pt' := hq
      by_cases he : q = p
      · subst he; rw [fset_same] at hq; cases hq
      · rw [fset_other _ _ he] at hq
        exact a.pts q pt' hq hd
    split
    · rename_i s1 ev pt' h
      rw [h] at a b hq
      refine ⟨?_, a.trace, hq⟩
      intro q r ptq ptr hpq hpr hdq hdr he
      have hpq : fset s1.points p (some pt') q = some ptq := hpq
      have hpr : fset s1.points p (some pt') r = some ptr := hpr
      have he : fset s1.target p ev q = fset s1.target p ev r := he
      by_cases hq' : q = p <;> by_cases hr' : r = p
      · rw [hq', hr']
      · subst hq'
        rw [fset_same] at hpq; cases hpq
        rw [fset_other _ _ hr'] at hpr
        rw [fset_same, fset_other _ _ hr'] at he
        obtain ⟨h1, h2⟩ := a.pts r ptr hpr hdr
        have h2 : s1.target r = s.target r := h2
        have h3 := b ev pt' rfl hdq
        have h4 := due_lt hi h1 hdr
        omega
      · subst hr'
        rw [fset_same] at hpr; cases hpr
        rw [fset_other _ _ hq'] at hpq
        rw [fset_same, fset_other _ _ hq'] at he
        obtain ⟨h1, h2⟩ := a.pts q ptq hpq hdq
        have h2 : s1.target q = s.target q := h2
        have h3 := b ev pt' rfl hdr
        have h4 := due_lt hi h1 hdq
        omega
      · rw [fset_other _ _ hq'] at hpq he
        rw [fset_other _ _ hr'] at hpr he
        obtain ⟨h1, h2⟩ := a.pts q ptq hpq hdq
        obtain ⟨h3, h4⟩ := a.pts r ptr hpr hdr
        exact ha q r ptq ptr h1 h3 hdq hdr (by rw [← h2, ← h4]; exact he)
    · rename_i s1 v h
      rw [h] at a hq hend
      exact ⟨hend s1 _ rfl, a.trace, hq⟩
    · rename_i s1 v h
      rw [h] at a hq hend
      exact ⟨hend s1 _ rfl, a.trace, hq⟩

/-! ## One step -/

/-- The callback may lead to a report. -/
def Loud (s : Sim) (cb : Callback) : Prop := ∃ q pt, cb = .resume q ∧ s.points q = some pt ∧ pt.due.isSome

theorem apart_callback (C : Cfg) {ev : ℕ} {v : Except PyErr SVal} {cb : Callback} {l : List Callback} (h : Good C.ruleFiring s) (ha : Apart s) (hp : Pending ev v (cb :: l) s) :
    Apart (callback C ev v s cb) ∧ ((callback C ev v s cb).trace = s.trace ∨ ∃ e : Ev, e.act ≠ .unknown ∧ (callback C ev v s cb).trace = s.trace ++ [(s.now, e)]) ∧
    (¬ Loud s cb → (callback C ev v s cb).trace = s.trace) := by
  have hthin : ∀ {s s' : Sim}, Thin s s' → Apart s → Apart s' := fun ht ha p q pt pt' h1 h2 h3 h4 h5 => by
    rw [ht.points] at h1 h2
    rw [ht.target] at h5
    exact ha p q pt pt' h1 h2 h3 h4 h5
  have hquiet : ∀ s' : Sim, Apart s' → s'.trace = s.trace → Apart s' ∧ (s'.trace = s.trace ∨ ∃ e : Ev, e.act ≠ .unknown ∧ s'.trace = s.trace ++ [(s.now, e)]) ∧
      (¬ Loud s cb → s'.trace = s.trace) := fun s' h1 h2 => ⟨h1, .inl h2, fun _ => h2⟩
  cases cb with
  | resume p =>
    have hl : ¬ Loud s (.resume p) → ∀ pt, s.points p = some pt → pt.due = Option.none := fun hl pt hpt => by
      cases hd : pt.due with
      | none => rfl
      | some t => exact absurd ⟨p, pt, rfl, hpt, by rw [hd]; rfl⟩ hl
    rcases v with x | v
    · obtain ⟨a, b, c⟩ := apart_resume C (p := p) (x := .error x) (good_defuse (ev := ev) h).1.1 (hthin thin_defuse ha)
      exact ⟨a, b, fun _ => c (.inr ⟨x, rfl⟩)⟩
    · obtain ⟨a, b, c⟩ := apart_resume C (p := p) (x := .ok v) h.1.1 ha
      exact ⟨a, b, fun hn => c (.inl (hl hn))⟩
  | interrupt p =>
    obtain ⟨rfl, _⟩ := hp.intr p (.head _)
    simp only [callback]
    split
    · exact hquiet s ha rfl
    · obtain ⟨a, _, c⟩ := apart_resume C (p := p) (x := .error .interrupt) (good_drop (ev := s.target p) (cb := .resume p) (by simp) h).1.1 (hthin (thin_drop (by simp)) ha)
      exact hquiet _ a (c (.inr ⟨_, rfl⟩))
  | check d =>
    simp only [callback]
    split
    · exact hquiet s ha rfl
    · split
      · exact hquiet _ (apart_hush ha (hush_trigger s d _).pts) rfl
      · exact hquiet _ (apart_hush (hthin thin_defuse ha) (hush_trigger _ d _).pts) rfl
  | build d a b => exact hquiet _ (hthin (thin_drop (by simp)) (hthin (thin_drop (by simp)) ha)) rfl
  | stop => exact hquiet s ha rfl

/-- Only one of the callbacks of an event leads to a report. -/
theorem apart_callbacks (C : Cfg) {ev : ℕ} {v : Except PyErr SVal} : ∀ (l : List Callback) {s : Sim}, Good C.ruleFiring s → Apart s → Pending ev v l s →
    Apart (l.foldl (callback C ev v) s) ∧
    ((l.foldl (callback C ev v) s).trace = s.trace ∨ ∃ e : Ev, e.act ≠ .unknown ∧ (l.foldl (callback C ev v) s).trace = s.trace ++ [(s.now, e)]) ∧
    ((∀ cb ∈ l, ¬ Loud s cb) → (l.foldl (callback C ev v) s).trace = s.trace)
  | [], s, _, ha, _ => ⟨ha, .inl rfl, fun _ => rfl⟩
  | cb :: l, s, h, ha, hp => by
    obtain ⟨g1, g2, r, ho, hr⟩ := good_callback C h hp
    obtain ⟨a1, a2, a3⟩ := apart_callback C h ha hp
    obtain ⟨b1, b2, b3⟩ := apart_callbacks C l g1 a1 g2
    -- the points of the processes that are still to be called do not change
    have hkeep : ∀ q, .resume q ∈ l → (callback C ev v s cb).points q = s.points q := fun q hq => by
      obtain ⟨_, _, pt, hpt, _⟩ := hp.res q (.tail _ hq)
      have hlt := points_lt h.1.1 hpt
      refine ho.points q hlt ?_
      rintro rfl
      rcases hr with hr | ⟨rfl | rfl, _⟩
      · exact absurd hlt (by rw [hr]; exact lt_irrefl _)
      · have := hp.once q
        rw [List.count_cons_self] at this
        have := List.count_pos_iff.2 hq
        omega
      · exact (hp.intr q (.head _)).2 q (.tail _ hq)
    have hloud : ∀ cb' ∈ l, Loud (callback C ev v s cb) cb' → Loud s cb' := by
      rintro cb' hm ⟨q, pt, rfl, hpt, hd⟩
      rw [hkeep q hm] at hpt
      exact ⟨q, pt, rfl, hpt, hd⟩
    refine ⟨b1, ?_, fun hn => ?_⟩
    · by_cases hl : Loud s cb
      · -- nothing else is loud
        have hrest : ∀ cb' ∈ l, ¬ Loud (callback C ev v s cb) cb' := by
          rintro cb' hm hl'
          obtain ⟨q, pt, rfl, hpt, hd⟩ := hl
          obtain ⟨q', pt', rfl, hpt', hd'⟩ := hloud cb' hm hl'
          have h1 := (hp.res q (.head _)).2.1
          have h2 := (hp.res q' (.tail _ hm)).2.1
          have := ha q q' pt pt' hpt hpt' hd hd' (h1.trans h2.symm)
          subst this
          have := hp.once q
          rw [List.count_cons_self] at this
          have := List.count_pos_iff.2 hm
          omega
        show (l.foldl (callback C ev v) (callback C ev v s cb)).trace = s.trace ∨ _
        rw [List.foldl_cons, b3 hrest]
        exact a2
      · have h3 := a3 hl
        rw [List.foldl_cons]
        rw [h3, ho.now] at b2
        exact b2
    · rw [List.foldl_cons, b3 fun cb' hm hl => hn cb' (.tail _ hm) (hloud cb' hm hl), a3 (hn cb (.head _))]

/-- The next event. -/
theorem apart_called (C : Cfg) {en : Entry} {q : List Entry} (h : Fine C.ruleFiring s) (ha : Apart s) (hq : s.queue = en :: q) (hstop : .stop ∉ s.cbs en.ev) :
    Apart (s.called C en q) ∧ ((s.called C en q).trace = s.trace ∨ ∃ e : Ev, e.act ≠ .unknown ∧ (s.called C en q).trace = s.trace ++ [(en.time, e)]) := by
  have hf := fine_taken h hq
  unfold Sim.called
  rcases h.1.grid en (by rw [hq]; exact .head _) with hg | hg
  · obtain ⟨a, b, _⟩ := apart_callbacks C (s.cbs en.ev) (s := s.taken en q) ⟨⟨hf.1, hg⟩, hf.2⟩ ha (pending_taken h.1 hq)
    exact ⟨a, b⟩
  · have : s.cbs en.ev = [] := by
      have := hg.resolve_left hstop
      simp [Sim.cbs, this]
    rw [this]; exact ⟨ha, .inl rfl⟩

/-- What one step does to the reports. -/
def OneMore (s s' : Sim) : Prop := s'.trace = s.trace ∨ ∃ e : Ev, e.act ≠ .unknown ∧ s'.trace = s.trace ++ [(s'.now, e)]

theorem apart_step {C : Cfg} (h : Fine C.ruleFiring s) (ha : Apart s) :
    (∀ s', s.step C = .ok s' → Apart s' ∧ OneMore s s') ∧ (∀ s', s.step C = .stopped s' → Apart s' ∧ OneMore s s') ∧
    (∀ s' x, s.step C = .raised s' x → Apart s' ∧ OneMore s s') := by
  have key : ∀ r, s.step C = r → match r with | .ok s' => Apart s' ∧ OneMore s s' | .stopped s' => Apart s' ∧ OneMore s s' | .raised s' _ => Apart s' ∧ OneMore s s' | .empty => True := by
    intro r hr
    rcases step_cases hr with ⟨rfl, _⟩ | ⟨en, q, hq, ⟨_, rfl⟩ | ⟨hs, hr⟩⟩
    · trivial
    · exact ⟨ha, .inl rfl⟩
    · have h1 := apart_called C h ha hq hs
      have h2 : (s.called C en q).now = en.time := (fine_called C h hq hs).2.now
      rw [← h2] at h1
      rcases hr with rfl | ⟨x, rfl⟩ <;> exact h1
  exact ⟨fun s' hs => key _ hs, fun s' hs => key _ hs, fun s' x hs => key _ hs⟩

theorem apart_compile {C : Cfg} (h : Apart s) : Apart (compileAtEnd C s).1 ∧ (compileAtEnd C s).1.trace = s.trace := by
  unfold compileAtEnd
  split
  · split <;> exact ⟨h, rfl⟩
  · exact ⟨h, rfl⟩

theorem hushed_initExtra : ∀ l : List String, Hushed (initExtra l)
  | [] => hushed_pure
  | n :: r => by
    have ih := hushed_initExtra r
    unfold initExtra
    split <;> hush

theorem apart_init (w : Mach) (args : Option EnvArgs) (t : ℚ) : Apart (Sim.init w args t) ∧ (Sim.init w args t).trace = [] := by
  have h0 : Apart (Sim.blank w args t) := fun p q pt pt' h => by simp [Sim.blank] at h
  have h1 := hushed_initExtra (w.bufs.map Prod.fst)
  have hd : Hushed (do let _ ← process .procNew; initExtra (w.bufs.map Prod.fst); if w.env.isSome then do let _ ← process .envNew; pure () else pure () : SimM Unit) := by
    refine hushed_bind (hushed_process rfl) fun _ => hushed_bind h1 fun _ => ?_
    split <;> hush
  exact ⟨apart_hush h0 (hd _).pts, (hd _).trace⟩

theorem apart_reachable {C : Cfg} {w : Mach} {args : Option EnvArgs} {t : ℚ} (h : Reachable C w args t s) : Apart s := by
  induction h with
  | init => exact (apart_init w args t).1
  | @stop s s' q r _ hs ih =>
    unfold Sim.setStop at hs
    split at hs
    · cases hs; exact ih
    · cases hs; exact ih
  | step h hs ih => exact ((apart_step (fine_reachable h) ih).1 _ hs).1
  | stopped h hs ih => exact ((apart_step (fine_reachable h) ih).2.1 _ hs).1
  | raised h hs ih => exact ((apart_step (fine_reachable h) ih).2.2 _ _ hs).1
  | compile _ hs ih => have := apart_compile (C := C) ih; rw [hs] at this; exact this.1

end Verif
