import Verif.Lemmas.Asked
/-! # Simulations stay within what generators do

Whatever relation between states of the model every part of every generator stays within, the simulation stays within. -/
namespace Verif
open Verif.Spec

variable {A B : Type} {s s' : Sim} {C : Cfg} {p : ℕ} {R : Mach → Mach → Prop} {w0 : Mach}

/-- A relation that every part of every generator stays within. -/
structure Regime (C : Cfg) (R : Mach → Mach → Prop) : Prop where
  refl : ∀ w, R w w
  trans : ∀ a b c, R a b → R b c → R a c
  run : ∀ d w, (Desc.run C d w).Moves R w
  procedural : ∀ t w, (genProcedural C t w).Moves R w
  light : ∀ (w : Mach) procs inter env k, R w { w with procs := procs, interaction := inter, env := env, nextId := k }
  compile : ∀ w, R w (compileIn C w).1

theorem Regime.interaction (h : Regime C R) (w : Mach) (i : List String) : R w { w with interaction := i } := h.light w w.procs i w.env w.nextId
theorem Regime.nextId (h : Regime C R) (w : Mach) (k : ℕ) : R w { w with nextId := k } := h.light w w.procs w.interaction w.env k
theorem Regime.procs (h : Regime C R) (w : Mach) (l : List PItem) : R w { w with procs := l } := h.light w l w.interaction w.env w.nextId
theorem Regime.environ (h : Regime C R) (w : Mach) (e : Env) : R w { w with env := some e } := h.light w w.procs w.interaction (some e) w.nextId

theorem Regime.env (hR : Regime C R) (upper : String → String) (a : StimArg) (b : TrigArg) (c : EnvTimes) (t : ℚ) (w : Mach) :
    (envProcess (fun env (w : Mach) => { w with env := some env }) envOf upper a b c t w).Moves R w := by
  have h : ∀ l i time w, (envLoop (fun env (w : Mach) => { w with env := some env }) envOf i time l w).Moves R w := by
    intro l
    induction l with
    | nil => intro i time w; exact hR.refl w
    | cons s r ih =>
      intro i time w
      simp only [envLoop]
      split
      · exact hR.refl w
      · split
        · exact hR.refl w
        · exact ⟨hR.environ _ _, fun w' => ih _ _ w'⟩
  unfold envProcess
  dsimp only
  split
  · exact hR.refl w
  · exact ⟨hR.environ _ _, fun w' => h _ _ _ w'⟩

/-- What a process that waits does later stays within the relation. -/
def PtIn (R : Mach → Mach → Prop) : Pt → Prop
  | .localNew _ g => ∀ w, (g w).Moves R w
  | .localWait _ _ k => ∀ w, (k w).Moves R w
  | .envWait _ k => ∀ w, (k w).Moves R w
  | _ => True

/-- The simulation has stayed within the relation, and will. -/
structure Abides (R : Mach → Mach → Prop) (w0 : Mach) (s : Sim) : Prop where
  mach : R w0 s.w
  points : ∀ p pt, s.points p = some pt → PtIn R pt

/-- A step within the relation, no process goes on. -/
structure Swerves (R : Mach → Mach → Prop) (s s' : Sim) : Prop where
  mach : R s.w s'.w
  points : s'.points = s.points

theorem abides_swerve (hR : Regime C R) (h : Abides R w0 s) (hs : Swerves R s s') : Abides R w0 s' :=
  ⟨hR.trans _ _ _ h.mach hs.mach, fun q pt hp => h.points q pt (hs.points ▸ hp)⟩

theorem swerves_refl (hR : Regime C R) (s : Sim) : Swerves R s s := ⟨hR.refl _, rfl⟩
theorem swerves_same (hR : Regime C R) (h1 : s'.w = s.w) (h2 : s'.points = s.points) : Swerves R s s' := ⟨by rw [h1]; exact hR.refl _, h2⟩

/-! ## Code -/

/-- The code abides by the relation, and its result has the property. -/
def Obeys (R : Mach → Mach → Prop) (m : SimM A) (Q : A → Prop) : Prop :=
  ∀ w0 s, Abides R w0 s → Abides R w0 (m s).1 ∧ ∀ a, (m s).2 = .ok a → Q a

variable {Q : A → Prop} {Q' : B → Prop}

theorem obeys_bind {m : SimM A} {f : A → SimM B} (hm : Obeys R m Q) (hf : ∀ a, Q a → Obeys R (f a) Q') : Obeys R (m >>= f) Q' := by
  intro w0 s h
  obtain ⟨h1, h2⟩ := hm w0 s h
  show Abides R w0 (SimM.bind m f s).1 ∧ ∀ a, (SimM.bind m f s).2 = .ok a → Q' a
  unfold SimM.bind
  rcases hr : m s with ⟨s1, e | a⟩
  · rw [hr] at h1
    exact ⟨h1, fun _ h => by cases h⟩
  · rw [hr] at h1 h2
    exact hf a (h2 a rfl) w0 s1 h1

/-- Code that only swerves. -/
def Swerving (R : Mach → Mach → Prop) (m : SimM A) : Prop := ∀ s : Sim, Swerves R s (m s).1

theorem obeys_swerving (hR : Regime C R) {m : SimM A} (hm : Swerving R m) : Obeys R m (fun _ => True) := fun _ s h => ⟨abides_swerve hR h (hm s), fun _ _ => trivial⟩
theorem obeys_then (hR : Regime C R) {m : SimM A} {f : A → SimM B} (hm : Swerving R m) (hf : ∀ a, Obeys R (f a) Q') : Obeys R (m >>= f) Q' := obeys_bind (obeys_swerving hR hm) fun a _ => hf a
theorem obeys_pure {a : A} (h : Q a) : Obeys R (pure a) Q := fun _ s hs => ⟨hs, fun _ h' => by cases h'; exact h⟩
theorem obeys_throw {e : PyErr} : Obeys R (SimM.throw e) Q := fun _ s hs => ⟨hs, fun _ h' => by cases h'⟩

theorem swerving_bind (hR : Regime C R) {m : SimM A} {f : A → SimM B} (hm : Swerving R m) (hf : ∀ a, Swerving R (f a)) : Swerving R (m >>= f) := by
  intro s
  show Swerves R s (SimM.bind m f s).1
  unfold SimM.bind
  have h1 := hm s
  rcases h : m s with ⟨s1, e | a⟩
  · rw [h] at h1; exact h1
  · rw [h] at h1
    have h2 := hf a s1
    exact ⟨hR.trans _ _ _ h1.mach h2.mach, h2.points.trans h1.points⟩

theorem swerving_of (hR : Regime C R) {m : SimM A} (h1 : ∀ s, (m s).1.w = s.w) (h2 : ∀ s, (m s).1.points = s.points) : Swerving R m := fun s => swerves_same hR (h1 s) (h2 s)

theorem swerving_pure (hR : Regime C R) {a : A} : Swerving R (pure a) := fun s => swerves_refl hR s
theorem swerving_throw (hR : Regime C R) {e : PyErr} : Swerving R (SimM.throw e : SimM A) := fun s => swerves_refl hR s
theorem swerving_get (hR : Regime C R) {f : Sim → A} : Swerving R (SimM.get f) := fun s => swerves_refl hR s
theorem swerving_set (hR : Regime C R) {f : Sim → Sim} (h : ∀ s : Sim, (f s).w = s.w ∧ (f s).points = s.points) : Swerving R (SimM.set f) := fun s => swerves_same hR (h s).1 (h s).2
theorem swerving_ite {c : Prop} [Decidable c] {m m' : SimM A} (h : Swerving R m) (h' : Swerving R m') : Swerving R (if c then m else m') := by split <;> assumption

theorem swerving_newEvent (hR : Regime C R) : Swerving R newEvent := fun s => swerves_same hR rfl rfl
theorem swerving_succeed (hR : Regime C R) {ev : ℕ} : Swerving R (succeed ev) := fun s => by
  unfold succeed
  split <;> exact swerves_same hR rfl rfl
theorem swerving_timeout (hR : Regime C R) {d : ℚ} : Swerving R (timeout d) := fun s => by
  unfold timeout
  split <;> exact swerves_same hR rfl rfl
theorem swerving_interrupt (hR : Regime C R) {r : ℕ} : Swerving R (interruptProcess r) := fun s => by
  unfold interruptProcess
  split <;> exact swerves_same hR rfl rfl

theorem addCallback_w (s : Sim) (ev : ℕ) (cb : Callback) : (s.addCallback ev cb).w = s.w ∧ (s.addCallback ev cb).points = s.points := ⟨rfl, rfl⟩

theorem swerving_anyOf (hR : Regime C R) {x y : ℕ} : Swerving R (anyOf x y) := fun s => by
  have key : ∀ (c ev : ℕ) (s : Sim), (if s.processed ev then (if s.triggered c then s else s.trigger c (.ok .nothing)) else s.addCallback ev (.check c)).w = s.w ∧
      (if s.processed ev then (if s.triggered c then s else s.trigger c (.ok .nothing)) else s.addCallback ev (.check c)).points = s.points := fun c ev s => by
    split
    · split <;> exact ⟨rfl, rfl⟩
    · exact addCallback_w s _ _
  exact swerves_same hR ((key s.next y _).1.trans (key s.next x (s.alloc ⟨Option.none, false, some [.build s.next x y]⟩)).1)
    ((key s.next y _).2.trans (key s.next x (s.alloc ⟨Option.none, false, some [.build s.next x y]⟩)).2)
theorem swerving_activateOf (hR : Regime C R) {name : String} : Swerving R (activateOf name) := fun s => by
  unfold activateOf
  cases alook name s.activate <;> exact swerves_refl hR s
theorem swerving_interruptExtra (hR : Regime C R) {name : String} : Swerving R (interruptExtra name) := fun s => by
  unfold interruptExtra
  cases alook name s.extra with
  | none => exact swerves_refl hR s
  | some p => exact swerving_interrupt hR s

macro "veerset" h:ident : tactic => `(tactic| (refine swerving_set $h fun _ => ?_; exact ⟨rfl, rfl⟩))

macro "veers" h:ident : tactic => `(tactic| repeat' with_reducible first
  | assumption
  | exact swerving_pure $h | exact swerving_throw $h | exact swerving_get $h | exact swerving_newEvent $h | exact swerving_succeed $h | exact swerving_activateOf $h
  | exact swerving_interruptExtra $h | exact swerving_interrupt $h | exact swerving_anyOf $h | exact swerving_timeout $h
  | veerset $h
  | refine swerving_ite ?_ ?_
  | refine swerving_bind $h ?_ fun _ => ?_)

theorem swerving_activateProc (hR : Regime C R) {e : Ev} : Swerving R (activateProc e) := by
  rcases activateProc_cases e with hp | hp <;> rw [hp]
  · exact swerving_pure hR
  · intro s
    dsimp only
    split
    · exact swerves_refl hR s
    · exact swerving_succeed hR s

theorem swerving_print (hR : Regime C R) {e : Ev} : Swerving R (printEvent e) := by
  rcases printEvent_cases e with ⟨_, hp⟩ | ⟨_, hp⟩ <;> rw [hp] <;> exact fun s => swerves_same hR rfl rfl

theorem swerving_envInteraction (hR : Regime C R) : Swerving R envInteraction := fun s => by
  unfold envInteraction
  have h0 : Swerving R (SimM.set (fun s => { s with w := { s.w with interaction := [] } })) := fun s => ⟨hR.interaction _ _, rfl⟩
  cases s.w.env with
  | none => exact swerves_refl hR s
  | some env =>
    dsimp only
    split
    · exact swerving_bind hR (swerving_succeed hR (ev := s.envActivate)) (fun _ => h0) s
    · exact h0 s

theorem swerving_renew (hR : Regime C R) {name : String} : Swerving R (renewActivate name) := by unfold renewActivate; veers hR
theorem swerving_envNext (hR : Regime C R) {pro : ℕ} : Swerving R (envNext pro) := by unfold envNext; veers hR

theorem swerving_notify (hR : Regime C R) (x : PItem) : Swerving R (notify x) := by
  cases x with
  | procedural => exact swerving_throw hR
  | gen name i d =>
    refine swerving_bind hR (swerving_activateOf hR) fun a => swerving_bind hR (swerving_get hR) fun busy => swerving_ite (swerving_bind hR (swerving_get hR) fun old => ?_) (by veers hR)
    split <;> veers hR

theorem swerving_notifyAll (hR : Regime C R) : ∀ l : List PItem, Swerving R (notifyAll l)
  | [] => swerving_pure hR
  | x :: r => swerving_bind hR (swerving_notify hR x) fun _ => swerving_notifyAll hR r

theorem swerving_setStarted (hR : Regime C R) {l : Sim → List PItem} : Swerving R (SimM.set (fun s => s.setStarted (l s))) := fun s => by
  show Swerves R s (s.setStarted (l s))
  unfold Sim.setStarted
  cases s.started with
  | none => exact ⟨hR.procs _ _, rfl⟩
  | some l' => exact swerves_same hR rfl rfl

theorem swerving_procsReturned (hR : Regime C R) {v : SVal} : Swerving R (procsReturned v) := fun s => by
  unfold procsReturned
  split <;> exact swerves_same hR rfl rfl

theorem swerving_startAutomatic (hR : Regime C R) {name : String} {i : ℕ} {d : Desc} : Swerving R (startAutomatic name i d) := by
  unfold startAutomatic
  refine swerving_bind hR (swerving_setStarted hR) fun _ => ?_
  refine swerving_bind hR (swerving_activateOf hR) fun a => swerving_bind hR (swerving_get hR) fun busy => swerving_ite (swerving_bind hR (swerving_get hR) fun old => ?_) (by veers hR)
  split <;> veers hR

theorem swerving_automatic (hR : Regime C R) {name : String} : Swerving R (automatic name) := fun s => by
  unfold automatic
  split
  · exact swerves_refl hR s
  · split
    · exact swerves_refl hR s
    · have h := swerving_startAutomatic hR (name := name) (i := s.w.nextId) (d := by assumption) { s with w := { s.w with nextId := s.w.nextId + 1 } }
      exact ⟨hR.trans _ _ _ (hR.nextId s.w _) h.mach, h.points⟩

theorem swerving_automaticAll (hR : Regime C R) : ∀ l : List String, Swerving R (automaticAll l)
  | [] => swerving_pure hR
  | _ :: r => swerving_bind hR (swerving_automatic hR) fun _ => swerving_automaticAll hR r

/-! ## Processes -/

theorem obeys_process {pt : Pt} (h : PtIn R pt) : Obeys R (process pt) (fun _ => True) := by
  intro w0 s hs
  refine ⟨⟨hs.mach, fun q pt' hq => ?_⟩, fun _ _ => trivial⟩
  have hq : fset s.points s.next (some pt) q = some pt' := hq
  by_cases he : q = s.next
  · subst he
    rw [fset_same] at hq
    cases hq
    exact h
  · rw [fset_other _ _ he] at hq
    exact hs.points q pt' hq

/-- When a process waits again. -/
def ResIn (R : Mach → Mach → Prop) : Res → Prop
  | .wait _ pt => PtIn R pt
  | .done _ => True

theorem abides_mach (hR : Regime C R) {w : Mach} (h : Abides R w0 s) (hw : R s.w w) : Abides R w0 { s with w := w } := ⟨hR.trans _ _ _ h.mach hw, h.points⟩

/-- The state is fetched and given to a generator. -/
theorem obeys_localRun (hR : Regime C R) {name : String} {g : Mach → Out Mach YV Unit} (h : ∀ w, (g w).Moves R w) : Obeys R (SimM.get (·.w) >>= fun w => localRun name (g w)) (ResIn R) := by
  intro w0 s hs
  have h := h s.w
  show Abides R w0 (localRun name (g s.w) s).1 ∧ ∀ a, (localRun name (g s.w) s).2 = .ok a → ResIn R a
  cases ho : g s.w with
  | yield w y k =>
    rw [ho] at h
    have hm := abides_mach hR hs h.1
    cases y with
    | ev e => exact obeys_then hR (swerving_timeout hR) (fun t => obeys_pure (Q := ResIn R) (a := .wait t (.localWait name e k)) h.2) w0 _ hm
    | cont d => exact ⟨hm, fun a ha => by cases ha; trivial⟩
    | procs => exact ⟨hm, fun a ha => by cases ha; trivial⟩
    | nothing => exact ⟨hm, fun a ha => by cases ha; trivial⟩
  | ret w a => rw [ho] at h; exact ⟨abides_mach hR hs h, fun a ha => by cases ha; trivial⟩
  | raise w x => rw [ho] at h; exact ⟨abides_mach hR hs h, fun a ha => by cases ha⟩

theorem obeys_localResume (hR : Regime C R) {name : String} {e : Ev} {k : Mach → Out Mach YV Unit} {x : Except PyErr SVal} (h : ∀ w, (k w).Moves R w) :
    Obeys R (localResume name e k x) (ResIn R) := by
  unfold localResume
  split
  · exact obeys_pure trivial
  · exact obeys_throw
  · exact obeys_then hR (swerving_print hR) fun _ => obeys_then hR (swerving_activateProc hR) fun _ => obeys_then hR (swerving_envInteraction hR) fun _ => obeys_localRun hR h

theorem obeys_procCycle (hR : Regime C R) {pt : Pt} (h : PtIn R pt) : Obeys R (procCycle C pt) (ResIn R) :=
  obeys_then hR (swerving_get hR) fun _ => obeys_bind (obeys_process fun w => hR.procedural _ w) fun _ _ => obeys_pure h

theorem obeys_spins (hR : Regime C R) {k : ℕ} : Obeys R (procSpins k) (ResIn R) := obeys_then hR (swerving_timeout hR) fun _ => obeys_pure trivial

theorem obeys_procLoop (hR : Regime C R) : Obeys R procLoop (ResIn R) := by
  unfold procLoop
  refine obeys_then hR (swerving_get hR) fun l => ?_
  split
  · refine obeys_then hR (swerving_setStarted hR) fun _ => ?_
    exact obeys_then hR (swerving_get hR) fun _ => obeys_then hR (swerving_notifyAll hR _) fun _ => obeys_spins hR
  · refine obeys_then hR (swerving_get hR) fun _ => obeys_then hR (swerving_get hR) fun _ => ?_
    split
    · exact obeys_spins hR
    · exact obeys_pure trivial

theorem obeys_start (hR : Regime C R) {name : String} {d : Desc} {g : ℕ → Pt} (hg : ∀ p, PtIn R (g p)) :
    Obeys R (process (.localNew name (d.run C)) >>= fun pro => pure (.wait pro (g pro))) (ResIn R) :=
  obeys_bind (obeys_process fun w => hR.run d w) fun _ _ => obeys_pure (hg _)

theorem obeys_extraLoop (hR : Regime C R) {name : String} : Obeys R (extraLoop C name) (ResIn R) := by
  unfold extraLoop
  refine obeys_then hR (swerving_get hR) fun l => ?_
  split
  · exact obeys_throw
  · refine obeys_then hR (by veerset hR) fun _ => obeys_then hR (swerving_activateOf hR) fun _ => obeys_then hR (swerving_get hR) fun _ => ?_
    split
    · exact obeys_then hR (swerving_renew hR) fun _ => obeys_pure trivial
    · exact obeys_pure trivial
  · refine obeys_then hR (swerving_setStarted hR) fun _ => obeys_then hR (swerving_activateOf hR) fun _ => obeys_then hR (swerving_get hR) fun _ => ?_
    split
    · exact obeys_start hR fun _ => trivial
    · exact obeys_then hR (swerving_succeed hR) fun _ => obeys_start hR fun _ => trivial

theorem obeys_extraAfterMain (hR : Regime C R) {name : String} {pro : ℕ} {x : Except PyErr SVal} : Obeys R (extraAfterMain C name pro x) (ResIn R) := by
  unfold extraAfterMain
  split
  · refine obeys_then hR (swerving_get hR) fun _ => ?_
    split
    · exact obeys_extraLoop hR
    · exact obeys_then hR (swerving_interrupt hR) fun _ => obeys_extraLoop hR
  · exact obeys_throw
  · exact obeys_start hR (g := fun _ => .extraCont name) fun _ => trivial
  · exact obeys_extraLoop hR

theorem obeys_extraAfterCont (hR : Regime C R) {name : String} {x : Except PyErr SVal} : Obeys R (extraAfterCont C name x) (ResIn R) := by
  unfold extraAfterCont
  split
  · exact obeys_extraLoop hR
  · exact obeys_throw
  · exact obeys_extraLoop hR

theorem obeys_envIter (hR : Regime C R) {e : EnvEvent} {k : Mach → Out Mach EnvEvent Unit} (h : ∀ w, (k w).Moves R w) : Obeys R (envIter e k) (ResIn R) :=
  obeys_bind (obeys_process (pt := .envProcNew _) trivial) fun _ _ => obeys_then hR (swerving_get hR) fun _ => obeys_then hR (swerving_anyOf hR) fun _ => obeys_pure h

theorem obeys_envStart (hR : Regime C R) : Obeys R (envStart C) (ResIn R) := fun w0 s hb => by
  cases ha : s.envArgs with
  | none =>
    have : envStart C s = (s, .error .type) := by simp only [envStart, ha]
    rw [this]; exact ⟨hb, fun r hr => by cases hr⟩
  | some a =>
    have hk := hR.env C.upper a.stimuli a.triggers a.times a.startTime s.w
    rcases ho : envProcess (fun env (w : Mach) => { w with env := some env }) envOf C.upper a.stimuli a.triggers a.times a.startTime s.w with ⟨w, e, k⟩ | ⟨w, r⟩ | ⟨w, x⟩
    · rw [ho] at hk
      have : envStart C s = envIter e k { s with w := w } := by simp only [envStart, ha, ho]
      rw [this]; exact obeys_envIter hR hk.2 _ _ (abides_mach hR hb hk.1)
    · rw [ho] at hk
      have : envStart C s = (SimM.throw .runtime : SimM Res) { s with w := w } := by simp only [envStart, ha, ho]; rfl
      rw [this]; exact obeys_throw _ _ (abides_mach hR hb hk)
    · rw [ho] at hk
      have : envStart C s = (SimM.throw x : SimM Res) { s with w := w } := by simp only [envStart, ha, ho]; rfl
      rw [this]; exact obeys_throw _ _ (abides_mach hR hb hk)

theorem obeys_envAdvance (hR : Regime C R) {k : Mach → Out Mach EnvEvent Unit} (h : ∀ w, (k w).Moves R w) : Obeys R (envAdvance k) (ResIn R) := fun w0 s hb => by
  have hk := h s.w
  unfold envAdvance
  split
  · rename_i w _ ho; rw [ho] at hk; exact ⟨abides_mach hR hb hk, fun r hr => by cases hr; trivial⟩
  · rename_i w x ho; rw [ho] at hk; exact ⟨abides_mach hR hb hk, fun r hr => by cases hr⟩
  · rename_i w e k' ho
    rw [ho] at hk
    exact obeys_then hR (swerving_automaticAll hR _) (fun _ => obeys_envIter hR hk.2) _ _ (abides_mach hR hb hk.1)

theorem obeys_envProcStart (hR : Regime C R) {e : Ev} : Obeys R (envProcStart e) (ResIn R) := fun w0 s hb => by
  unfold envProcStart
  have h1 := swerving_timeout hR (d := e.time - s.now) s
  split
  · rename_i s1 t h
    rw [h] at h1
    exact ⟨abides_swerve hR hb h1, fun r hr => by cases hr; trivial⟩
  · rename_i s1 x h
    rw [h] at h1
    exact obeys_then hR (f := fun _ => SimM.throw x) (swerving_activateProc hR) (fun _ => obeys_throw) _ _ (abides_swerve hR hb h1)

theorem obeys_envProcResume (hR : Regime C R) {e : Ev} {x : Except PyErr SVal} : Obeys R (envProcResume e x) (ResIn R) := by
  unfold envProcResume
  split
  · exact obeys_then hR (swerving_activateProc hR) fun _ => obeys_pure trivial
  · exact obeys_then hR (swerving_activateProc hR) fun _ => obeys_throw
  · exact obeys_then hR (swerving_print hR) fun _ => obeys_then hR (swerving_activateProc hR) fun _ => obeys_pure trivial

theorem obeys_code (hR : Regime C R) {pt : Pt} {x : Except PyErr SVal} (hp : PtIn R pt) : Obeys R (code C pt x) (ResIn R) := by
  unfold code
  split
  · exact obeys_procCycle hR trivial
  · exact obeys_then hR (swerving_procsReturned hR) fun _ => obeys_procLoop hR
  · exact obeys_spins hR
  · split
    · exact obeys_procCycle hR trivial
    · exact obeys_spins hR
  · exact obeys_then hR (swerving_procsReturned hR) fun _ => obeys_then hR (swerving_newEvent hR) fun _ => obeys_then hR (by veerset hR) fun _ => obeys_procLoop hR
  · exact obeys_extraLoop hR
  · exact obeys_then hR (swerving_renew hR) fun _ => obeys_extraLoop hR
  · exact obeys_extraAfterMain hR
  · exact obeys_extraAfterCont hR
  · exact obeys_localRun hR hp
  · exact obeys_localResume hR hp
  · exact obeys_envStart hR
  · exact obeys_then hR (swerving_envNext hR) fun _ => obeys_envAdvance hR hp
  · exact obeys_envProcStart hR
  · exact obeys_envProcResume hR
  · exact obeys_throw

theorem abides_waits (hR : Regime C R) {ev : ℕ} {pt : Pt} (h : Abides R w0 s) (hp : PtIn R pt) : Abides R w0 (s.waits p ev pt) := by
  have ht := addCallback_w ({ s with points := fset s.points p (some pt), target := fset s.target p ev } : Sim) ev (.resume p)
  refine abides_swerve hR (s := { s with points := fset s.points p (some pt), target := fset s.target p ev }) ⟨h.mach, fun q pt' hq => ?_⟩ (swerves_same hR ht.1 ht.2)
  have hq : fset s.points p (some pt) q = some pt' := hq
  by_cases he : q = p
  · subst he
    rw [fset_same] at hq
    cases hq
    exact hp
  · rw [fset_other _ _ he] at hq
    exact h.points q pt' hq

theorem abides_ends {v : Except PyErr SVal} (h : Abides R w0 s) : Abides R w0 (s.ends p v) := by
  refine ⟨h.mach, fun q pt' hq => ?_⟩
  have hq : fset s.points p Option.none q = some pt' := hq
  by_cases he : q = p
  · subst he
    rw [fset_same] at hq
    cases hq
  · rw [fset_other _ _ he] at hq
    exact h.points q pt' hq

theorem abides_resume (hR : Regime C R) {x : Except PyErr SVal} (h : Abides R w0 s) : Abides R w0 (s.resume C p x) := by
  cases hp : s.points p with
  | none =>
    have : s.resume C p x = s := by unfold Sim.resume; rw [hp]
    rw [this]; exact h
  | some pt =>
    rw [resume_eq C hp]
    obtain ⟨h3, h4⟩ := obeys_code hR (h.points p pt hp) w0 s h (x := x)
    rcases hcode : code C pt x s with ⟨s1, e | r⟩
    · rw [hcode] at h3
      exact abides_ends h3
    · rw [hcode] at h3 h4
      have h4 := h4 r rfl
      cases r with
      | wait ev pt' => exact abides_waits hR h3 h4
      | done v => exact abides_ends h3

/-! ## Steps -/

theorem abides_callback (hR : Regime C R) {ev : ℕ} {v : Except PyErr SVal} {cb : Callback} (h : Abides R w0 s) : Abides R w0 (callback C ev v s cb) := by
  cases cb with
  | resume p => rcases v with x | v <;> exact abides_resume hR ⟨h.mach, h.points⟩
  | interrupt p =>
    simp only [callback]
    split
    · exact h
    · exact abides_resume hR ⟨h.mach, h.points⟩
  | check d =>
    simp only [callback]
    split
    · exact h
    · rcases v with x | v <;> exact ⟨h.mach, h.points⟩
  | build d x y => exact ⟨h.mach, h.points⟩
  | stop => exact h

theorem abides_callbacks (hR : Regime C R) {ev : ℕ} {v : Except PyErr SVal} : ∀ (l : List Callback) {s : Sim}, Abides R w0 s → Abides R w0 (l.foldl (callback C ev v) s)
  | [], _, h => h
  | _ :: l, _, h => abides_callbacks hR l (abides_callback hR h)

theorem abides_step (hR : Regime C R) (h : Abides R w0 s) (hs : Stepped.leads (s.step C) s') : Abides R w0 s' := by
  rcases step_cases (C := C) (s := s) rfl with ⟨h0, _⟩ | ⟨en, q, hq, ⟨_, h0⟩ | ⟨hst, h0 | ⟨x, h0⟩⟩⟩ <;> rw [h0] at hs <;> rcases hs with hs | hs | ⟨_, hs⟩ <;> cases hs
  · exact ⟨h.mach, h.points⟩
  · exact abides_callbacks hR _ (s := s.taken en q) ⟨h.mach, h.points⟩
  · exact abides_callbacks hR _ (s := s.taken en q) ⟨h.mach, h.points⟩

theorem abides_moment (hR : Regime C R) {m : Sim} (h : Abides R w0 s) (hm : Moment C s m) : Abides R w0 m := by
  obtain ⟨en, q, l1, l2, _, _, rfl⟩ := hm
  exact abides_callbacks hR l1 (s := { s with now := en.time, queue := q, events := fset s.events en.ev { s.events en.ev with callbacks := Option.none } }) ⟨h.mach, h.points⟩

theorem abides_setStop {q : ℚ} (h : Abides R w0 s) : Abides R w0 (s.setStop q).1 := by
  unfold Sim.setStop
  split
  · exact h
  · exact ⟨h.mach, h.points⟩

theorem abides_compile (hR : Regime C R) (h : Abides R w0 s) : Abides R w0 (compileAtEnd C s).1 := by
  have h1 := hR.compile s.w
  unfold compileAtEnd
  split
  · rcases hci : compileIn C s.w with ⟨w', x | o⟩ <;> rw [hci] at h1 <;> exact abides_mach hR h h1
  · exact h

variable {w : Mach} {args : Option EnvArgs} {t : ℚ}

theorem obeys_initExtra (hR : Regime C R) : ∀ l : List String, Obeys R (initExtra l) (fun _ => True)
  | [] => obeys_pure trivial
  | n :: r => by
    unfold initExtra
    split
    · exact obeys_initExtra hR r
    · exact obeys_bind (obeys_process (pt := .extraNew n) trivial) fun _ _ => obeys_then hR (swerving_newEvent hR) fun _ => obeys_then hR (by veerset hR) fun _ => obeys_initExtra hR r

theorem abides_init (hR : Regime C R) : Abides R w (Sim.init w args t) := by
  have h0 : Abides R w (Sim.blank w args t) := ⟨hR.refl w, fun q pt hq => by cases hq⟩
  refine (obeys_bind (Q' := fun _ => True) (obeys_process (pt := .procNew) trivial) (fun _ _ => obeys_bind (obeys_initExtra hR (w.bufs.map Prod.fst)) fun _ _ => ?_) _ _ h0).1
  split
  · exact obeys_bind (obeys_process (pt := .envNew) trivial) fun _ _ => obeys_pure trivial
  · exact obeys_pure trivial

theorem abides_goesOn (hR : Regime C R) (h : Abides R w0 s) (hg : GoesOn C s s') : Abides R w0 s' := by
  induction hg with
  | refl => exact h
  | step _ hs ih => exact abides_step hR ih hs
  | stop q _ ih => exact abides_setStop ih
  | compile _ ih => exact abides_compile hR ih

theorem abides_reachable (hR : Regime C R) (h : Reachable C w args t s) : Abides R w s := by
  induction h with
  | init => exact abides_init hR
  | @stop s1 s2 q r hr hs ih =>
    have : s2 = (s1.setStop q).1 := by rw [hs]
    subst this
    exact abides_setStop ih
  | step hr hs ih => exact abides_step hR ih (.inl hs)
  | stopped hr hs ih => exact abides_step hR ih (.inr (.inl hs))
  | raised hr hs ih => exact abides_step hR ih (.inr (.inr ⟨_, hs⟩))
  | @compile s1 s2 r hr hs ih =>
    have : s2 = (compileAtEnd C s1).1 := by rw [hs]
    subst this
    exact abides_compile hR ih

/-- From the beginning to any state. -/
theorem regime_reachable (hR : Regime C R) (h : Reachable C w args t s) : R w s.w := (abides_reachable hR h).mach

/-- From any state to any later one. -/
theorem regime_goesOn (hR : Regime C R) (h : Reachable C w args t s) (hg : GoesOn C s s') : R s.w s'.w :=
  (abides_goesOn hR ⟨hR.refl _, (abides_reachable hR h).points⟩ hg).mach

end Verif
