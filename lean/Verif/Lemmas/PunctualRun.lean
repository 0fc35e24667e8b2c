import Verif.Lemmas.Punctual
import Verif.Lemmas.Asked
/-! # Nothing is in memory before its time: the simulation -/
namespace Verif
open Verif.Spec

variable {A B : Type} {L T : ℚ} {s s' : Sim} {C : Cfg} {p : ℕ}

/-- Nothing happens to memory and to processes. -/
abbrev Unspoilt (w w' : Mach) : Prop := w'.mems = w.mems ∧ w'.procs = w.procs ∧ w'.bufs = w.bufs

theorem unspoilt_refl (w : Mach) : Unspoilt w w := ⟨rfl, rfl, rfl⟩

theorem unspoilt_env (upper : String → String) (a : StimArg) (b : TrigArg) (c : EnvTimes) (t : ℚ) (w : Mach) :
    (envProcess (fun env (w : Mach) => { w with env := some env }) envOf upper a b c t w).Moves Unspoilt w := by
  have hr : ∀ w : Mach, Unspoilt w w := unspoilt_refl
  have h : ∀ l i time w, (envLoop (fun env (w : Mach) => { w with env := some env }) envOf i time l w).Moves Unspoilt w := by
    intro l
    induction l with
    | nil => intro i time w; exact hr w
    | cons s r ih =>
      intro i time w
      simp only [envLoop]
      split
      · exact hr w
      · split
        · exact hr w
        · exact ⟨⟨rfl, rfl, rfl⟩, fun w' => ih _ _ w'⟩
  unfold envProcess
  dsimp only
  split
  · exact hr w
  · exact ⟨⟨rfl, rfl, rfl⟩, fun w' => h _ _ _ w'⟩

/-- What a process that waits does later is in time. -/
def PtTimely (C : Cfg) (L T : ℚ) : Pt → Prop
  | .localNew _ g => ∀ T', T ≤ T' → Tm C L T' g Anyhow
  | .localWait _ e k => ∀ T', T ≤ T' → e.time ≤ T' → ∀ w', Dated C L T' w' → Punct C L Anyhow T' (k w')
  | .envWait _ k => ∀ w, (k w).Moves Unspoilt w
  | _ => True

theorem ptTimely_mono {T' : ℚ} {pt : Pt} (h : PtTimely C L T pt) (ht : T ≤ T') : PtTimely C L T' pt := by
  cases pt <;> first | exact fun T2 h2 => h T2 (le_trans ht h2) | exact h

/-- The simulation at the time `T`. -/
structure Timely (C : Cfg) (L T : ℚ) (s : Sim) : Prop where
  now : s.now = T
  dated : Dated C L T s.w
  points : ∀ p pt, s.points p = some pt → PtTimely C L T pt
  started : ∀ l, s.started = some l → ∀ n i d, .gen n i d ∈ l → DescBy C L T d
  conts : ∀ ev d, (s.events ev).value = some (.ok (.cont d)) → DescBy C L T d

theorem timely_list (h : Timely C L T s) : ∀ n i d, .gen n i d ∈ s.startedList → DescBy C L T d := by
  unfold Sim.startedList
  cases hs : s.started with
  | none => exact h.dated.procs
  | some l => exact h.started l hs

/-! ## Code that has nothing to do with it -/

/-- Nothing of this is changed. -/
structure Spare (s s' : Sim) : Prop where
  now : s'.now = s.now
  mach : Unspoilt s.w s'.w
  points : s'.points = s.points
  started : s'.started = s.started
  conts : ∀ ev d, (s'.events ev).value = some (.ok (.cont d)) → (s.events ev).value = some (.ok (.cont d))

theorem spare_refl (s : Sim) : Spare s s := ⟨rfl, unspoilt_refl _, rfl, rfl, fun _ _ h => h⟩
theorem spare_trans {s1 s2 s3 : Sim} (h1 : Spare s1 s2) (h2 : Spare s2 s3) : Spare s1 s3 :=
  ⟨h2.now.trans h1.now, ⟨h2.mach.1.trans h1.mach.1, h2.mach.2.1.trans h1.mach.2.1, h2.mach.2.2.trans h1.mach.2.2⟩, h2.points.trans h1.points, h2.started.trans h1.started, fun ev d h => h1.conts ev d (h2.conts ev d h)⟩

theorem timely_calm (h : Timely C L T s) (hc : Spare s s') : Timely C L T s' :=
  ⟨hc.now.trans h.now, dated_same h.dated hc.mach.1 hc.mach.2.1 hc.mach.2.2, fun q pt hp => h.points q pt (hc.points ▸ hp), fun l hl => h.started l (hc.started ▸ hl), fun ev d hv => h.conts ev d (hc.conts ev d hv)⟩

/-- Code that changes nothing of this. -/
def Lenient (m : SimM A) : Prop := ∀ s : Sim, Spare s (m s).1

theorem lenient_bind {m : SimM A} {f : A → SimM B} (hm : Lenient m) (hf : ∀ a, Lenient (f a)) : Lenient (m >>= f) := by
  intro s
  show Spare s (SimM.bind m f s).1
  unfold SimM.bind
  have h1 := hm s
  rcases h : m s with ⟨s1, e | a⟩
  · rw [h] at h1; exact h1
  · rw [h] at h1; exact spare_trans h1 (hf a s1)

theorem lenient_pure {a : A} : Lenient (pure a) := fun s => spare_refl s
theorem lenient_throw {e : PyErr} : Lenient (SimM.throw e : SimM A) := fun s => spare_refl s
theorem lenient_get {f : Sim → A} : Lenient (SimM.get f) := fun s => spare_refl s
theorem lenient_set {f : Sim → Sim} (h : ∀ s : Sim, (f s).now = s.now ∧ (f s).started = s.started ∧ Unspoilt s.w (f s).w ∧ (f s).events = s.events ∧ (f s).points = s.points) : Lenient (SimM.set f) := fun s => by
  obtain ⟨h1, h2, h3, h4, h5⟩ := h s
  refine ⟨h1, h3, h5, h2, fun ev d hv => ?_⟩
  change ((f s).events ev).value = _ at hv
  rw [h4] at hv
  exact hv

theorem spare_alloc {E : SEv} (hE : ∀ d, E.value ≠ some (.ok (.cont d))) (s : Sim) : Spare s (s.alloc E) :=
  ⟨rfl, unspoilt_refl _, rfl, rfl, fun ev d hv => by
    by_cases he : ev = s.next
    · subst he; rw [events_alloc_new] at hv; exact absurd hv (hE d)
    · rw [events_alloc_old he] at hv; exact hv⟩
theorem spare_schedule (s : Sim) (ev : ℕ) (u : Bool) (q : ℚ) : Spare s (s.schedule ev u q) := ⟨rfl, unspoilt_refl _, rfl, rfl, fun _ _ h => h⟩
theorem spare_timer {E : SEv} (hE : ∀ d, E.value ≠ some (.ok (.cont d))) (s : Sim) (ev : ℕ) (u : Bool) (q : ℚ) : Spare s ((s.alloc E).schedule ev u q) :=
  spare_trans (spare_alloc hE s) (spare_schedule _ _ _ _)
theorem spare_trigger {v : Except PyErr SVal} (hv : ∀ d, v ≠ .ok (.cont d)) (s : Sim) (ev : ℕ) : Spare s (s.trigger ev v) :=
  ⟨rfl, unspoilt_refl _, rfl, rfl, fun x d hx => by
    have hx : (fset s.events ev { s.events ev with value := some v } x).value = _ := hx
    by_cases he : x = ev
    · subst he; rw [fset_same] at hx; exact absurd (Option.some.inj hx) (hv d)
    · rw [fset_other _ _ he] at hx; exact hx⟩
theorem spare_addCallback (s : Sim) (ev : ℕ) (cb : Callback) : Spare s (s.addCallback ev cb) :=
  ⟨rfl, unspoilt_refl _, rfl, rfl, fun x d hx => by rw [value_addCallback] at hx; exact hx⟩
theorem spare_thin (h : Thin s s') (h1 : s'.w = s.w) (h2 : s'.started = s.started) (h3 : s'.now = s.now) : Spare s s' :=
  ⟨h3, by rw [h1]; exact unspoilt_refl _, h.points, h2, fun ev d hv => by rw [← h.value]; exact hv⟩

theorem lenient_newEvent : Lenient newEvent := fun s => spare_alloc (fun _ h => by cases h) s
theorem lenient_succeed {ev : ℕ} : Lenient (succeed ev) := fun s => by
  unfold succeed
  split
  · exact spare_refl s
  · exact spare_trigger (fun _ h => by cases h) s ev
theorem lenient_timeout {d : ℚ} : Lenient (timeout d) := fun s => by
  unfold timeout
  split
  · exact spare_refl s
  · exact spare_timer (fun _ h => by cases h) s _ _ _
theorem lenient_interrupt {r : ℕ} : Lenient (interruptProcess r) := fun s => by
  unfold interruptProcess
  split
  · exact spare_refl s
  · exact spare_timer (fun _ h => by cases h) s _ _ _
theorem lenient_anyOf {x y : ℕ} : Lenient (anyOf x y) := fun s => by
  have key : ∀ (c ev : ℕ) (s : Sim), Spare s (if s.processed ev then (if s.triggered c then s else s.trigger c (.ok .nothing)) else s.addCallback ev (.check c)) := fun c ev s => by
    split
    · split
      · exact spare_refl s
      · exact spare_trigger (fun _ h => by cases h) s _
    · exact spare_addCallback s _ _
  have h0 : Spare s (s.alloc ⟨Option.none, false, some [.build s.next x y]⟩) := spare_alloc (fun _ h => by cases h) s
  exact spare_trans (spare_trans h0 (key s.next x _)) (key s.next y _)
theorem lenient_activateOf {name : String} : Lenient (activateOf name) := fun s => by
  unfold activateOf
  cases alook name s.activate <;> exact spare_refl s
theorem lenient_interruptExtra {name : String} : Lenient (interruptExtra name) := fun s => by
  unfold interruptExtra
  cases alook name s.extra with
  | none => exact spare_refl s
  | some p => exact lenient_interrupt s
theorem lenient_ite {c : Prop} [Decidable c] {m m' : SimM A} (h : Lenient m) (h' : Lenient m') : Lenient (if c then m else m') := by split <;> assumption

macro "leaveset" : tactic => `(tactic| (refine lenient_set fun _ => ?_; exact ⟨rfl, rfl, ⟨rfl, rfl, rfl⟩, rfl, rfl⟩))

macro "leavesit" : tactic => `(tactic| repeat' with_reducible first
  | assumption
  | exact lenient_pure | exact lenient_throw | exact lenient_get | exact lenient_newEvent | exact lenient_succeed | exact lenient_activateOf | exact lenient_interruptExtra
  | exact lenient_interrupt | exact lenient_anyOf | exact lenient_timeout
  | leaveset
  | refine lenient_ite ?_ ?_
  | refine lenient_bind ?_ fun _ => ?_)

theorem lenient_activateProc {e : Ev} : Lenient (activateProc e) := by
  rcases activateProc_cases e with hp | hp <;> rw [hp]
  · exact lenient_pure
  · intro s
    dsimp only
    split
    · exact spare_refl s
    · exact lenient_succeed s

theorem lenient_print {e : Ev} : Lenient (printEvent e) := by
  rcases printEvent_cases e with ⟨_, hp⟩ | ⟨_, hp⟩ <;> rw [hp]
  · exact fun s => spare_refl s
  · exact fun s => ⟨rfl, unspoilt_refl _, rfl, rfl, fun _ _ h => h⟩

theorem lenient_envInteraction : Lenient envInteraction := fun s => by
  unfold envInteraction
  have h0 : Lenient (SimM.set (fun s => { s with w := { s.w with interaction := [] } })) := by leaveset
  cases s.w.env with
  | none => exact spare_refl s
  | some env =>
    dsimp only
    split
    · exact lenient_bind (lenient_succeed (ev := s.envActivate)) (fun _ => h0) s
    · exact h0 s

theorem lenient_renew {name : String} : Lenient (renewActivate name) := by unfold renewActivate; leavesit
theorem lenient_envNext {pro : ℕ} : Lenient (envNext pro) := by unfold envNext; leavesit

theorem lenient_notify (x : PItem) : Lenient (notify x) := by
  cases x with
  | procedural => exact lenient_throw
  | gen name i d =>
    refine lenient_bind lenient_activateOf fun a => lenient_bind lenient_get fun busy => lenient_ite (lenient_bind lenient_get fun old => ?_) (by leavesit)
    split <;> leavesit

theorem lenient_notifyAll : ∀ l : List PItem, Lenient (notifyAll l)
  | [] => lenient_pure
  | x :: r => lenient_bind (lenient_notify x) fun _ => lenient_notifyAll r

/-! ## Code in general -/

/-- The code keeps to this, and its result has the property. -/
def Heeds (C : Cfg) (L T : ℚ) (m : SimM A) (Q : A → Prop) : Prop :=
  ∀ s, Timely C L T s → Timely C L T (m s).1 ∧ ∀ a, (m s).2 = .ok a → Q a

variable {Q : A → Prop} {Q' : B → Prop}

theorem heeds_bind {m : SimM A} {f : A → SimM B} (hm : Heeds C L T m Q) (hf : ∀ a, Q a → Heeds C L T (f a) Q') : Heeds C L T (m >>= f) Q' := by
  intro s h
  obtain ⟨h1, h2⟩ := hm s h
  show Timely C L T (SimM.bind m f s).1 ∧ ∀ a, (SimM.bind m f s).2 = .ok a → Q' a
  unfold SimM.bind
  rcases hr : m s with ⟨s1, e | a⟩
  · rw [hr] at h1
    exact ⟨h1, fun _ h => by cases h⟩
  · rw [hr] at h1 h2
    exact hf a (h2 a rfl) s1 h1

theorem heeds_calm {m : SimM A} (hm : Lenient m) : Heeds C L T m (fun _ => True) := fun s h => ⟨timely_calm h (hm s), fun _ _ => trivial⟩
theorem heeds_then {m : SimM A} {f : A → SimM B} (hm : Lenient m) (hf : ∀ a, Heeds C L T (f a) Q') : Heeds C L T (m >>= f) Q' := heeds_bind (heeds_calm hm) fun a _ => hf a
theorem heeds_get {f : Sim → A} (h : ∀ s, Timely C L T s → Q (f s)) : Heeds C L T (SimM.get f) Q := fun s hs => ⟨hs, fun a ha => by cases ha; exact h s hs⟩
theorem heeds_pure {a : A} (h : Q a) : Heeds C L T (pure a) Q := fun s hs => ⟨hs, fun _ h' => by cases h'; exact h⟩
theorem heeds_throw {e : PyErr} : Heeds C L T (SimM.throw e) Q := fun s hs => ⟨hs, fun _ h' => by cases h'⟩
theorem heeds_ite {c : Prop} [Decidable c] {m m' : SimM A} (h : Heeds C L T m Q) (h' : Heeds C L T m' Q) : Heeds C L T (if c then m else m') Q := by split <;> assumption

theorem timely_setStarted {l : List PItem} (h : Timely C L T s) (hl : ∀ n i d, .gen n i d ∈ l → DescBy C L T d) : Timely C L T (s.setStarted l) := by
  unfold Sim.setStarted
  cases hs : s.started with
  | none => exact ⟨h.now, dated_new h.dated newBy_refl (fun n i d hm => .inr (hl n i d hm)) rfl, h.points, (fun l' hl' => by have hl' : s.started = some l' := hs.trans hl'; rw [hs] at hl'; cases hl'), h.conts⟩
  | some l' => exact ⟨h.now, h.dated, h.points, (fun l2 h2 => by cases h2; exact hl), h.conts⟩

theorem heeds_setStarted {l : List PItem} (hl : ∀ n i d, .gen n i d ∈ l → DescBy C L T d) : Heeds C L T (SimM.set (fun s => s.setStarted l)) (fun _ => True) := fun _ h =>
  ⟨timely_setStarted h hl, fun _ _ => trivial⟩

theorem timely_mach {w : Mach} (h : Timely C L T s) (hw : Dated C L T w) : Timely C L T { s with w := w } := ⟨h.now, hw, h.points, h.started, h.conts⟩

theorem heeds_procsReturned {v : SVal} : Heeds C L T (procsReturned v) (fun _ => True) := fun s h => by
  unfold procsReturned
  split
  · exact ⟨⟨h.now, h.dated, h.points, (fun l hl => by cases hl), h.conts⟩, fun _ _ => trivial⟩
  · exact ⟨h, fun _ _ => trivial⟩

/-- A new process. -/
theorem heeds_process {pt : Pt} (h : PtTimely C L T pt) : Heeds C L T (process pt) (fun _ => True) := by
  intro s hs
  have h1 : Spare s (s.alloc ⟨Option.none, false, some []⟩) := spare_alloc (fun _ h => by cases h) s
  have h2 := spare_trans h1 (spare_timer (E := ⟨some (.ok .nothing), false, some [.resume s.next]⟩) (fun _ h => by cases h) (s.alloc ⟨Option.none, false, some []⟩) (s.next + 1) true 0)
  have h3 := timely_calm hs h2
  refine ⟨⟨h3.now, h3.dated, fun q pt' hq => ?_, h3.started, h3.conts⟩, fun _ _ => trivial⟩
  have hq : fset s.points s.next (some pt) q = some pt' := hq
  by_cases he : q = s.next
  · subst he
    rw [fset_same] at hq
    cases hq
    exact h
  · rw [fset_other _ _ he] at hq
    exact hs.points q pt' hq

/-- When a process waits again or ends. -/
def ResTimely (C : Cfg) (L T : ℚ) : Res → Prop
  | .wait _ pt => PtTimely C L T pt
  | .done v => ∀ d, v = .cont d → DescBy C L T d

theorem heeds_mach {w : Mach} (hw : Dated C L T w) : Heeds C L T (SimM.set (fun s => { s with w := w })) (fun _ => True) := fun _ hs => ⟨timely_mach hs hw, fun _ _ => trivial⟩

theorem heeds_localRun {name : String} {o : Out Mach YV Unit} (h : Punct C L Anyhow T o) : Heeds C L T (localRun name o) (ResTimely C L T) := by
  cases o with
  | yield w y k =>
    cases y with
    | ev e => exact heeds_bind (heeds_mach h.1) fun _ _ => heeds_then lenient_get fun _ => heeds_then lenient_timeout fun _ => heeds_pure h.2
    | cont d => exact heeds_bind (heeds_mach h.1) fun _ _ => heeds_pure fun d' hd => by cases hd; exact h.2
    | procs => exact heeds_bind (heeds_mach h) fun _ _ => heeds_pure fun d' hd => by cases hd
    | nothing => exact heeds_bind (heeds_mach h) fun _ _ => heeds_pure fun d' hd => by cases hd
  | ret w a => exact heeds_bind (heeds_mach h.1) fun _ _ => heeds_pure fun d' hd => by cases hd
  | raise w x => exact heeds_bind (heeds_mach h) fun _ _ => heeds_throw

theorem heeds_localResume {name : String} {e : Ev} {k : Mach → Out Mach YV Unit} {x : Except PyErr SVal} (h : PtTimely C L T (.localWait name e k)) (he : (∃ v, x = .ok v) → e.time ≤ T) :
    Heeds C L T (localResume name e k x) (ResTimely C L T) := by
  unfold localResume
  split
  · exact heeds_pure fun d hd => by cases hd
  · exact heeds_throw
  · refine heeds_then lenient_print fun _ => heeds_then lenient_activateProc fun _ => heeds_then lenient_envInteraction fun _ =>
      heeds_bind (heeds_get (Q := fun w => Dated C L T w) fun s hs => hs.dated) fun w hw => heeds_localRun (h T le_rfl (he ⟨_, rfl⟩) w hw)

theorem heeds_procCycle (hL : 0 ≤ L) {pt : Pt} (h : PtTimely C L T pt) : Heeds C L T (procCycle C pt) (ResTimely C L T) :=
  heeds_then lenient_get fun _ => heeds_bind (heeds_process fun _ _ => tm_procedural hL) fun _ _ => heeds_pure h

theorem heeds_spins {k : ℕ} : Heeds C L T (procSpins k) (ResTimely C L T) := heeds_then lenient_timeout fun _ => heeds_pure trivial

theorem heeds_procLoop : Heeds C L T procLoop (ResTimely C L T) := by
  unfold procLoop
  refine heeds_bind (heeds_get (Q := fun l => ∀ n i d, PItem.gen n i d ∈ l → DescBy C L T d) fun s hs => timely_list hs) fun l hl => ?_
  split
  · refine heeds_bind (heeds_setStarted fun n i d hm => hl n i d (removeProcedural_mem hm)) fun _ _ => ?_
    exact heeds_then lenient_get fun _ => heeds_then (lenient_notifyAll _) fun _ => heeds_spins
  · refine heeds_then lenient_get fun _ => heeds_then lenient_get fun _ => ?_
    split
    · exact heeds_spins
    · exact heeds_pure trivial

theorem heeds_start (hL : 0 ≤ L) {name : String} {d : Desc} {g : ℕ → Pt} (hd : DescBy C L T d) (hg : ∀ p, PtTimely C L T (g p)) :
    Heeds C L T (process (.localNew name (d.run C)) >>= fun pro => pure (.wait pro (g pro))) (ResTimely C L T) :=
  heeds_bind (heeds_process fun _ h => tm_run hL (descBy_mono hd h)) fun _ _ => heeds_pure (hg _)

theorem heeds_extraLoop (hL : 0 ≤ L) {name : String} : Heeds C L T (extraLoop C name) (ResTimely C L T) := by
  unfold extraLoop
  refine heeds_bind (heeds_get (Q := fun l => ∀ n i d, PItem.gen n i d ∈ l → DescBy C L T d) fun s hs => timely_list hs) fun l hl => ?_
  split
  · exact heeds_throw
  · refine heeds_then (by leaveset) fun _ => heeds_then lenient_activateOf fun _ => heeds_then lenient_get fun _ => ?_
    split
    · exact heeds_then lenient_renew fun _ => heeds_pure trivial
    · exact heeds_pure trivial
  · rename_i i d rest hd
    obtain ⟨⟨j, h1⟩, h2⟩ := mem_takeFor hd
    refine heeds_bind (heeds_setStarted fun n i d hm => hl n i d (h2 _ hm)) fun _ _ => heeds_then lenient_activateOf fun _ => heeds_then lenient_get fun _ => ?_
    split
    · exact heeds_start hL (hl _ j d h1) fun _ => trivial
    · exact heeds_then lenient_succeed fun _ => heeds_start hL (hl _ j d h1) fun _ => trivial

theorem heeds_extraAfterMain (hL : 0 ≤ L) {name : String} {pro : ℕ} {x : Except PyErr SVal} (hx : ∀ d, x = .ok (.cont d) → DescBy C L T d) :
    Heeds C L T (extraAfterMain C name pro x) (ResTimely C L T) := by
  unfold extraAfterMain
  split
  · refine heeds_then lenient_get fun _ => ?_
    split
    · exact heeds_extraLoop hL
    · exact heeds_then lenient_interrupt fun _ => heeds_extraLoop hL
  · exact heeds_throw
  · exact heeds_start hL (g := fun _ => .extraCont name) (hx _ rfl) fun _ => trivial
  · exact heeds_extraLoop hL

theorem heeds_extraAfterCont (hL : 0 ≤ L) {name : String} {x : Except PyErr SVal} : Heeds C L T (extraAfterCont C name x) (ResTimely C L T) := by
  unfold extraAfterCont
  split
  · exact heeds_extraLoop hL
  · exact heeds_throw
  · exact heeds_extraLoop hL

theorem heeds_startAutomatic {name : String} {i : ℕ} {d : Desc} (hd : DescBy C L T d) : Heeds C L T (startAutomatic name i d) (fun _ => True) := by
  unfold startAutomatic
  refine heeds_bind (Q := fun _ => True) (fun s hs => ⟨timely_setStarted hs fun n i' d' hm => ?_, fun _ _ => trivial⟩) fun _ _ => heeds_calm ?_
  · rcases List.mem_append.1 hm with hm | hm
    · exact timely_list hs n i' d' hm
    · cases List.mem_singleton.1 hm; exact hd
  · refine lenient_bind lenient_activateOf fun a => lenient_bind lenient_get fun busy => lenient_ite (lenient_bind lenient_get fun old => ?_) (by leavesit)
    split <;> leavesit

theorem heeds_automatic (hT : OnGrid T) {name : String} : Heeds C L T (automatic name) (fun _ => True) := fun s hs => by
  unfold automatic
  split
  · exact ⟨hs, fun _ _ => trivial⟩
  · split
    · exact ⟨hs, fun _ _ => trivial⟩
    · rename_i bu _ d hd
      refine heeds_startAutomatic ?_ _ (timely_calm hs ⟨rfl, ⟨rfl, rfl, rfl⟩, rfl, rfl, fun _ _ h => h⟩)
      rw [hs.now] at hd
      unfold automaticFor at hd
      split at hd
      · cases hd; exact (round4_onGrid hT).le
      · split at hd
        · cases hd; trivial
        · cases hd
      · cases hd

theorem heeds_automaticAll (hT : OnGrid T) : ∀ l : List String, Heeds C L T (automaticAll l) (fun _ => True)
  | [] => heeds_pure trivial
  | _ :: r => heeds_bind (heeds_automatic hT) fun _ _ => heeds_automaticAll hT r

theorem heeds_envIter {e : EnvEvent} {k : Mach → Out Mach EnvEvent Unit} (h : ∀ w, (k w).Moves Unspoilt w) : Heeds C L T (envIter e k) (ResTimely C L T) :=
  heeds_bind (heeds_process trivial) fun _ _ => heeds_then lenient_get fun _ => heeds_then lenient_anyOf fun _ => heeds_pure h

theorem timely_unspoilt {w : Mach} (h : Timely C L T s) (hw : Unspoilt s.w w) : Timely C L T { s with w := w } := timely_mach h (dated_same h.dated hw.1 hw.2.1 hw.2.2)

theorem heeds_envStart : Heeds C L T (envStart C) (ResTimely C L T) := fun s hb => by
  cases ha : s.envArgs with
  | none =>
    have : envStart C s = (s, .error .type) := by simp only [envStart, ha]
    rw [this]; exact ⟨hb, fun r hr => by cases hr⟩
  | some a =>
    have hk := unspoilt_env C.upper a.stimuli a.triggers a.times a.startTime s.w
    rcases ho : envProcess (fun env (w : Mach) => { w with env := some env }) envOf C.upper a.stimuli a.triggers a.times a.startTime s.w with ⟨w, e, k⟩ | ⟨w, r⟩ | ⟨w, x⟩
    · rw [ho] at hk
      have : envStart C s = envIter e k { s with w := w } := by simp only [envStart, ha, ho]
      rw [this]; exact heeds_envIter hk.2 _ (timely_unspoilt hb hk.1)
    · rw [ho] at hk
      have : envStart C s = (SimM.throw .runtime : SimM Res) { s with w := w } := by simp only [envStart, ha, ho]; rfl
      rw [this]; exact heeds_throw _ (timely_unspoilt hb hk)
    · rw [ho] at hk
      have : envStart C s = (SimM.throw x : SimM Res) { s with w := w } := by simp only [envStart, ha, ho]; rfl
      rw [this]; exact heeds_throw _ (timely_unspoilt hb hk)

theorem heeds_envAdvance (hT : OnGrid T) {k : Mach → Out Mach EnvEvent Unit} (h : ∀ w, (k w).Moves Unspoilt w) : Heeds C L T (envAdvance k) (ResTimely C L T) := fun s hb => by
  have hk := h s.w
  unfold envAdvance
  split
  · rename_i w _ ho; rw [ho] at hk; exact ⟨timely_unspoilt hb hk, fun r hr => by cases hr; exact fun d hd => by cases hd⟩
  · rename_i w x ho; rw [ho] at hk; exact ⟨timely_unspoilt hb hk, fun r hr => by cases hr⟩
  · rename_i w e k' ho
    rw [ho] at hk
    exact heeds_bind (heeds_automaticAll hT _) (fun _ _ => heeds_envIter hk.2) _ (timely_unspoilt hb hk.1)

theorem heeds_envProcStart {e : Ev} : Heeds C L T (envProcStart e) (ResTimely C L T) := fun s hb => by
  unfold envProcStart
  have h1 := lenient_timeout (d := e.time - s.now) s
  split
  · rename_i s1 t h
    rw [h] at h1
    exact ⟨timely_calm hb h1, fun r hr => by cases hr; trivial⟩
  · rename_i s1 x h
    rw [h] at h1
    exact heeds_then (f := fun _ => SimM.throw x) lenient_activateProc (fun _ => heeds_throw) _ (timely_calm hb h1)

theorem heeds_envProcResume {e : Ev} {x : Except PyErr SVal} : Heeds C L T (envProcResume e x) (ResTimely C L T) := by
  unfold envProcResume
  split
  · exact heeds_then lenient_activateProc fun _ => heeds_pure fun d hd => by cases hd
  · exact heeds_then lenient_activateProc fun _ => heeds_throw
  · exact heeds_then lenient_print fun _ => heeds_then lenient_activateProc fun _ => heeds_pure fun d hd => by cases hd

/-- The code of a process. -/
theorem heeds_code (hL : 0 ≤ L) (hT : OnGrid T) {pt : Pt} {x : Except PyErr SVal} (hp : PtTimely C L T pt) (hd : (∃ v, x = .ok v) → ∀ t, pt.due = some t → t ≤ T) (hx : ∀ d, x = .ok (.cont d) → DescBy C L T d) :
    Heeds C L T (code C pt x) (ResTimely C L T) := by
  unfold code
  split
  · exact heeds_procCycle hL trivial
  · exact heeds_bind heeds_procsReturned fun _ _ => heeds_procLoop
  · exact heeds_spins
  · split
    · exact heeds_procCycle hL trivial
    · exact heeds_spins
  · exact heeds_bind heeds_procsReturned fun _ _ => heeds_then lenient_newEvent fun _ => heeds_then (by leaveset) fun _ => heeds_procLoop
  · exact heeds_extraLoop hL
  · exact heeds_then lenient_renew fun _ => heeds_extraLoop hL
  · exact heeds_extraAfterMain hL hx
  · exact heeds_extraAfterCont hL
  · exact heeds_bind (heeds_get (Q := fun w => Dated C L T w) fun s hs => hs.dated) fun w hw => heeds_localRun (hp T le_rfl w hw)
  · exact heeds_localResume hp fun h => hd h _ rfl
  · exact heeds_envStart
  · exact heeds_then lenient_envNext fun _ => heeds_envAdvance hT hp
  · exact heeds_envProcStart
  · exact heeds_envProcResume
  · exact heeds_throw

/-! ## Processes that are resumed -/

theorem timely_waits {ev : ℕ} {pt : Pt} (h : Timely C L T s) (hp : PtTimely C L T pt) : Timely C L T (s.waits p ev pt) := by
  have ht : Spare ({ s with points := fset s.points p (some pt), target := fset s.target p ev } : Sim) (s.waits p ev pt) := spare_addCallback _ _ _
  refine timely_calm (s := { s with points := fset s.points p (some pt), target := fset s.target p ev }) ⟨h.now, h.dated, fun q pt' hq => ?_, h.started, h.conts⟩ ht
  have hq : fset s.points p (some pt) q = some pt' := hq
  by_cases he : q = p
  · subst he
    rw [fset_same] at hq
    cases hq
    exact hp
  · rw [fset_other _ _ he] at hq
    exact h.points q pt' hq

theorem timely_ends {v : Except PyErr SVal} (h : Timely C L T s) (hv : ∀ d, v = .ok (.cont d) → DescBy C L T d) : Timely C L T (s.ends p v) := by
  refine ⟨h.now, h.dated, fun q pt' hq => ?_, h.started, fun e d hd => ?_⟩
  · have hq : fset s.points p Option.none q = some pt' := hq
    by_cases he : q = p
    · subst he
      rw [fset_same] at hq
      cases hq
    · rw [fset_other _ _ he] at hq
      exact h.points q pt' hq
  · have hd : (fset s.events p { s.events p with value := some v } e).value = _ := hd
    by_cases he : e = p
    · subst he
      rw [fset_same] at hd
      exact hv d (Option.some.inj hd)
    · rw [fset_other _ _ he] at hd
      exact h.conts e d hd

theorem timely_resume (hL : 0 ≤ L) (hT : OnGrid T) {pt : Pt} {x : Except PyErr SVal} (h : Timely C L T s) (hp : s.points p = some pt) (hd : (∃ v, x = .ok v) → ∀ t, pt.due = some t → t ≤ T)
    (hx : ∀ d, x = .ok (.cont d) → DescBy C L T d) : Timely C L T (s.resume C p x) := by
  rw [resume_eq C hp]
  obtain ⟨h3, h4⟩ := heeds_code hL hT (h.points p pt hp) hd hx s h
  rcases hcode : code C pt x s with ⟨s1, e | r⟩
  · rw [hcode] at h3
    exact timely_ends h3 fun d hd => by cases hd
  · rw [hcode] at h3 h4
    have h4 := h4 r rfl
    cases r with
    | wait ev pt' => exact timely_waits h3 h4
    | done v => exact timely_ends h3 fun d hd => by cases hd; exact h4 d rfl

/-! ## Steps -/

theorem timely_callback (hL : 0 ≤ L) {ev : ℕ} {v : Except PyErr SVal} {cb : Callback} {l : List Callback} (h : Timely C L T s) (hg : Good C.ruleFiring s)
    (hp : Pending ev v (cb :: l) s) (hx : ∀ d, v = .ok (.cont d) → DescBy C L T d) : Timely C L T (callback C ev v s cb) := by
  have hT : OnGrid T := h.now ▸ hg.1.2
  cases cb with
  | resume p =>
    obtain ⟨_, ht, pt, hpt, hdue⟩ := hp.res p (.head _)
    have hd : ∀ t, pt.due = some t → t ≤ T := fun t ht => by rw [hdue t ht, h.now]
    rcases v with x | v
    · exact timely_resume hL hT (timely_calm h (spare_thin (thin_defuse (ev := ev)) rfl rfl rfl)) hpt (fun _ => hd) fun d hd => by cases hd
    · exact timely_resume hL hT h hpt (fun _ => hd) hx
  | interrupt p =>
    obtain ⟨rfl, _⟩ := hp.intr p (.head _)
    simp only [callback]
    split
    · exact h
    · have h1 := timely_calm h (spare_thin (thin_drop (ev := s.target p) (cb := .resume p) (by simp)) rfl rfl rfl)
      cases hpt : s.points p with
      | none =>
        have : (s.dropCallback (s.target p) (.resume p)).resume C p (.error .interrupt) = s.dropCallback (s.target p) (.resume p) := by
          unfold Sim.resume
          have : (s.dropCallback (s.target p) (.resume p)).points p = Option.none := hpt
          rw [this]
        rw [this]
        exact h1
      | some pt => exact timely_resume hL hT h1 (pt := pt) hpt (fun ⟨_, h⟩ => by cases h) fun d hd => by cases hd
  | check d =>
    simp only [callback]
    split
    · exact h
    · rcases v with x | v
      · exact timely_calm h (spare_trans (spare_thin (thin_defuse (ev := ev)) rfl rfl rfl) (spare_trigger (fun d hd => by cases hd) _ _))
      · exact timely_calm h (spare_trigger (fun d hd => by cases hd) _ _)
  | build d x y =>
    exact timely_calm h (spare_trans (spare_thin (thin_drop (ev := x) (cb := .check d) (by simp)) rfl rfl rfl) (spare_thin (thin_drop (ev := y) (cb := .check d) (by simp)) rfl rfl rfl))
  | stop => exact h

theorem timely_callbacks (hL : 0 ≤ L) {ev : ℕ} {v : Except PyErr SVal} (hx : ∀ d, v = .ok (.cont d) → DescBy C L T d) : ∀ (l : List Callback) {s : Sim}, Timely C L T s → Good C.ruleFiring s → Pending ev v l s →
    Timely C L T (l.foldl (callback C ev v) s)
  | [], s, h, _, _ => h
  | cb :: l, s, h, hg, hp => by
    obtain ⟨g1, g2, _⟩ := good_callback C hg hp
    exact timely_callbacks hL hx l (timely_callback hL h hg hp hx) g1 g2

theorem timely_later {T' : ℚ} (h : Timely C L T s) (ht : T ≤ T') (h0 : s'.now = T') (h1 : s'.w = s.w) (h2 : s'.points = s.points) (h3 : s'.started = s.started)
    (h4 : ∀ ev, (s'.events ev).value = (s.events ev).value) : Timely C L T' s' :=
  ⟨h0, h1 ▸ dated_mono h.dated ht, fun q pt hq => ptTimely_mono (h.points q pt (h2 ▸ hq)) ht, fun l hl n i d hm => descBy_mono (h.started l (h3 ▸ hl) n i d hm) ht,
    fun ev d hv => descBy_mono (h.conts ev d (h4 ev ▸ hv)) ht⟩

theorem timely_taken {en : Entry} {q : List Entry} (hi : Inv s) (h : Timely C L s.now s) (hq : s.queue = en :: q) : Timely C L en.time (s.taken en q) :=
  timely_later h (hi.ahead en (by rw [hq]; exact .head _)) rfl rfl rfl rfl (thin_taken s en q).value

theorem timely_called (hL : 0 ≤ L) {en : Entry} {q : List Entry} (hf : Fine C.ruleFiring s) (h : Timely C L s.now s) (hq : s.queue = en :: q) (hstop : .stop ∉ s.cbs en.ev) :
    Timely C L en.time (s.called C en q) := by
  have h1 := timely_taken hf.1 h hq
  have hft := fine_taken hf hq
  unfold Sim.called
  rcases hf.1.grid en (by rw [hq]; exact .head _) with hg | hg
  · refine timely_callbacks hL (fun d hd => ?_) (s.cbs en.ev) h1 ⟨⟨hft.1, hg⟩, hft.2⟩ (pending_taken hf.1 hq)
    cases hv : (s.events en.ev).value with
    | none => rw [hv] at hd; cases hd
    | some u =>
      rw [hv] at hd
      exact h1.conts en.ev d (by rw [(thin_taken s en q).value, hv]; exact congrArg some hd)
  · rw [show s.cbs en.ev = [] from by simp [Sim.cbs, hg.resolve_left hstop]]; exact h1

theorem timely_now (h : Timely C L T s) : Timely C L s.now s := by have := h.now; subst this; exact h

theorem timely_step (hL : 0 ≤ L) (hf : Fine C.ruleFiring s) (h : Timely C L s.now s) (hs : Stepped.leads (s.step C) s') : Timely C L s'.now s' := by
  rcases step_cases (C := C) (s := s) rfl with ⟨h0, _⟩ | ⟨en, q, hq, ⟨_, h0⟩ | ⟨hst, h0 | ⟨x, h0⟩⟩⟩ <;> rw [h0] at hs <;> rcases hs with hs | hs | ⟨_, hs⟩ <;> cases hs
  · exact timely_now (timely_taken hf.1 h hq)
  · exact timely_now (timely_called hL hf h hq hst)
  · exact timely_now (timely_called hL hf h hq hst)

theorem spare_setStop (s : Sim) (q : ℚ) : Spare s (s.setStop q).1 := by
  unfold Sim.setStop
  split
  · exact spare_refl s
  · exact spare_timer (E := ⟨some (.ok .nothing), false, some [.stop]⟩) (fun _ h => by cases h) s _ _ _

theorem timely_compile (h : Timely C L T s) : Timely C L T (compileAtEnd C s).1 := by
  have h1 := dated_compileIn h.dated
  unfold compileAtEnd
  split
  · rcases hci : compileIn C s.w with ⟨w', x | o⟩ <;> rw [hci] at h1 <;> exact timely_mach h h1
  · exact h

/-! ## The beginning -/

variable {w : Mach} {args : Option EnvArgs} {t : ℚ}

theorem heeds_initExtra : ∀ l : List String, Heeds C L T (initExtra l) (fun _ => True)
  | [] => heeds_pure trivial
  | n :: r => by
    unfold initExtra
    split
    · exact heeds_initExtra r
    · exact heeds_bind (heeds_process trivial) fun _ _ => heeds_then lenient_newEvent fun _ => heeds_then (by leaveset) fun _ => heeds_initExtra r

theorem timely_init (hw : Dated C L (round4 t) w) : Timely C L (round4 t) (Sim.init w args t) := by
  have h0 : Timely C L (round4 t) (Sim.blank w args t) := ⟨rfl, hw, (fun q pt hq => by cases hq), (fun l hl => by cases hl; exact fun n i d hm => by cases hm), fun ev d hv => by cases hv⟩
  refine (heeds_bind (Q' := fun _ => True) (heeds_process (pt := .procNew) trivial) (fun _ _ => heeds_bind (heeds_initExtra (w.bufs.map Prod.fst)) fun _ _ => ?_) _ h0).1
  split
  · exact heeds_bind (heeds_process trivial) fun _ _ => heeds_pure trivial
  · exact heeds_pure trivial

/-! ## All states -/

theorem timely_reachable (hL : 0 ≤ L) (hw : Dated C L (round4 t) w) (h : Reachable C w args t s) : Timely C L s.now s := by
  induction h with
  | init => exact timely_now (timely_init hw)
  | @stop s1 s2 q r hr hs ih =>
    have : s2 = (s1.setStop q).1 := by rw [hs]
    subst this
    exact timely_now (timely_calm ih (spare_setStop s1 q))
  | step hr hs ih => exact timely_step hL (fine_reachable hr) ih (.inl hs)
  | stopped hr hs ih => exact timely_step hL (fine_reachable hr) ih (.inr (.inl hs))
  | raised hr hs ih => exact timely_step hL (fine_reachable hr) ih (.inr (.inr ⟨_, hs⟩))
  | @compile s1 s2 r hr hs ih =>
    have : s2 = (compileAtEnd C s1).1 := by rw [hs]
    subst this
    exact timely_now (timely_compile ih)

end Verif
