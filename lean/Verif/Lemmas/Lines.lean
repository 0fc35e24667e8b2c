import Verif.Lemmas.Hark
import Verif.Spec.Requests
/-! # Requests wait in line for their modules: the code of processes -/
namespace Verif
open Verif.Spec

variable {A B : Type} {s s' : Sim} {p : ℕ}

/-- Modules keep their events, and no new ones begin. -/
structure Fitted (s s' : Sim) : Prop where
  next : s.next ≤ s'.next
  act : ∀ n, (alook n s.activate).isSome → (alook n s'.activate).isSome
  pts : ∀ p n, s'.points p = some (.extraNew n) → s.points p = some (.extraNew n)
  extra : s'.extra = s.extra

/-- No request is taken away, and new ones come last. The list of the simulation itself may be given up. -/
structure Lines (s s' : Sim) : Prop where
  fits : Fitted s s'
  procs : Gains s.w s'.w
  own : ∀ l, s.started = some l → s'.started = Option.none ∨ ∃ l', s'.started = some l' ∧ ∀ n, requestsFor n l <+: requestsFor n l'
  shared : s.started = Option.none → s'.started = Option.none

theorem fitted_refl (s : Sim) : Fitted s s := ⟨le_rfl, fun _ h => h, fun _ _ h => h, rfl⟩
theorem fitted_trans {a b c : Sim} (h1 : Fitted a b) (h2 : Fitted b c) : Fitted a c :=
  ⟨h1.next.trans h2.next, fun n h => h2.act n (h1.act n h), fun p n h => h1.pts p n (h2.pts p n h), h2.extra.trans h1.extra⟩

theorem lines_refl (s : Sim) : Lines s s := ⟨fitted_refl s, gains_refl _, fun l h => .inr ⟨l, h, fun _ => List.prefix_rfl⟩, id⟩

theorem lines_trans {a b c : Sim} (h1 : Lines a b) (h2 : Lines b c) : Lines a c := by
  refine ⟨fitted_trans h1.fits h2.fits, gains_trans _ _ _ h1.procs h2.procs, fun l hl => ?_, fun h => h2.shared (h1.shared h)⟩
  rcases h1.own l hl with h | ⟨l1, h, h'⟩
  · exact .inl (h2.shared h)
  · rcases h2.own l1 h with h | ⟨l2, h, h''⟩
    · exact .inl h
    · exact .inr ⟨l2, h, fun n => (h' n).trans (h'' n)⟩

theorem lines_same (h0 : s.next ≤ s'.next) (h1 : s'.activate = s.activate) (h2 : s'.started = s.started) (h3 : Gains s.w s'.w) (h4 : s'.extra = s.extra) (h5 : s'.points = s.points) : Lines s s' :=
  ⟨⟨h0, fun n h => by rw [h1]; exact h, fun p n h => by rw [← h5]; exact h, h4⟩, h3, fun l hl => .inr ⟨l, h2.trans hl, fun _ => List.prefix_rfl⟩, fun h => h2.trans h⟩

/-- Code that behaves like this. -/
def Liny (m : SimM A) : Prop := ∀ s : Sim, Lines s (m s).1

theorem liny_bind {m : SimM A} {f : A → SimM B} (hm : Liny m) (hf : ∀ a, Liny (f a)) : Liny (m >>= f) := by
  intro s
  show Lines s (SimM.bind m f s).1
  unfold SimM.bind
  have h1 := hm s
  rcases h : m s with ⟨s1, e | a⟩
  · rw [h] at h1; exact h1
  · rw [h] at h1; exact lines_trans h1 (hf a s1)

theorem liny_pure {a : A} : Liny (pure a) := fun s => lines_refl s
theorem liny_throw {e : PyErr} : Liny (SimM.throw e : SimM A) := fun s => lines_refl s
theorem liny_get {f : Sim → A} : Liny (SimM.get f) := fun s => lines_refl s
theorem liny_set {f : Sim → Sim} (h : ∀ s : Sim, (f s).next = s.next ∧ (f s).activate = s.activate ∧ (f s).started = s.started ∧ (f s).w.procs = s.w.procs ∧ (f s).extra = s.extra ∧ (f s).points = s.points) :
    Liny (SimM.set f) := fun s => lines_same (h s).1.ge (h s).2.1 (h s).2.2.1 (gains_procs (h s).2.2.2.1) (h s).2.2.2.2.1 (h s).2.2.2.2.2
theorem lines_alloc (s : Sim) (E : SEv) : Lines s (s.alloc E) := lines_same (Nat.le_succ _) rfl rfl (gains_refl _) rfl rfl
theorem lines_timer (s : Sim) (E : SEv) (u : Bool) (d : ℚ) : Lines s ((s.alloc E).schedule s.next u d) := lines_same (Nat.le_succ _) rfl rfl (gains_refl _) rfl rfl
theorem liny_newEvent : Liny newEvent := fun s => lines_alloc s _
theorem lines_trigger (s : Sim) (ev : ℕ) (v : Except PyErr SVal) : Lines s (s.trigger ev v) := lines_same le_rfl rfl rfl (gains_refl _) rfl rfl
theorem lines_addCallback (s : Sim) (ev : ℕ) (c : Callback) : Lines s (s.addCallback ev c) := lines_same le_rfl rfl rfl (gains_refl _) rfl rfl

theorem liny_succeed {ev : ℕ} : Liny (succeed ev) := fun s => by
  unfold succeed
  split
  · exact lines_refl s
  · exact lines_trigger s ev _

theorem liny_timeout {d : ℚ} : Liny (timeout d) := fun s => by
  unfold timeout
  split
  · exact lines_refl s
  · exact lines_timer s _ _ _

theorem liny_process {pt : Pt} (h : ∀ n, pt ≠ .extraNew n) : Liny (process pt) := fun s => by
  have h1 := lines_alloc s ⟨Option.none, false, some []⟩
  have h2 := lines_timer (s.alloc ⟨Option.none, false, some []⟩) ⟨some (.ok .nothing), false, some [.resume s.next]⟩ true 0
  have h3 := lines_trans h1 h2
  refine ⟨⟨h3.fits.next, h3.fits.act, fun p n hp => ?_, h3.fits.extra⟩, h3.procs, h3.own, h3.shared⟩
  have hp : fset s.points s.next (some pt) p = some (.extraNew n) := hp
  by_cases he : p = s.next
  · subst he; rw [fset_same] at hp; cases hp; exact absurd rfl (h n)
  · rw [fset_other _ _ he] at hp; exact hp

theorem liny_interrupt {r : ℕ} : Liny (interruptProcess r) := fun s => by
  unfold interruptProcess
  split
  · exact lines_refl s
  · exact lines_timer s _ _ _

theorem liny_anyOf {a b : ℕ} : Liny (anyOf a b) := fun s => by
  have key : ∀ (c ev : ℕ) (s : Sim), Lines s (if s.processed ev then (if s.triggered c then s else s.trigger c (.ok .nothing)) else s.addCallback ev (.check c)) := fun c ev s => by
    split
    · split
      · exact lines_refl s
      · exact lines_trigger s _ _
    · exact lines_addCallback s _ _
  have h0 : Lines s (s.alloc ⟨Option.none, false, some [.build s.next a b]⟩) := lines_alloc s _
  exact lines_trans (lines_trans h0 (key s.next a _)) (key s.next b _)

theorem liny_activateOf {name : String} : Liny (activateOf name) := fun s => by
  unfold activateOf
  cases alook name s.activate <;> exact lines_refl s

theorem liny_interruptExtra {name : String} : Liny (interruptExtra name) := fun s => by
  unfold interruptExtra
  cases alook name s.extra with
  | none => exact lines_refl s
  | some p => exact liny_interrupt s

theorem liny_ite {b : Prop} [Decidable b] {m m' : SimM A} (h : Liny m) (h' : Liny m') : Liny (if b then m else m') := by split <;> assumption

macro "linset" : tactic => `(tactic| (refine liny_set fun _ => ?_; exact ⟨rfl, rfl, rfl, rfl, rfl, rfl⟩))

macro "liny" : tactic => `(tactic| repeat' with_reducible first
  | assumption
  | exact liny_pure | exact liny_throw | exact liny_get | exact liny_newEvent | exact liny_succeed | exact liny_activateOf | exact liny_interruptExtra
  | exact liny_interrupt | exact liny_anyOf | exact liny_timeout | exact liny_process (fun _ h => by cases h)
  | linset
  | refine liny_ite ?_ ?_
  | refine liny_bind ?_ fun _ => ?_)

/-- The list of processes that were started is set. -/
theorem lines_setStarted {l : List PItem} (h : ∀ n, requestsFor n s.startedList <+: requestsFor n l) : Lines s (s.setStarted l) := by
  unfold Sim.setStarted
  unfold Sim.startedList at h
  cases hs : s.started with
  | none =>
    rw [hs] at h
    exact lines_same le_rfl rfl hs.symm h rfl rfl
  | some l' =>
    rw [hs] at h
    exact ⟨⟨le_rfl, fun _ h => h, fun _ _ h => h, rfl⟩, gains_refl _, fun l1 hl => .inr ⟨l, rfl, by rw [hs] at hl; cases hl; exact h⟩, fun h => by rw [hs] at h; cases h⟩

theorem liny_activateProc {e : Ev} : Liny (activateProc e) := by
  rcases activateProc_cases e with hp | hp <;> rw [hp]
  · exact liny_pure
  · intro s
    dsimp only
    split
    · exact lines_refl s
    · exact liny_succeed s

theorem liny_print {e : Ev} : Liny (printEvent e) := by
  rcases printEvent_cases e with ⟨_, hu⟩ | ⟨_, hu⟩ <;> rw [hu]
  · exact liny_pure
  · linset

theorem liny_envInteraction : Liny envInteraction := fun s => by
  unfold envInteraction
  have h0 : Liny (SimM.set (fun s => { s with w := { s.w with interaction := [] } })) := by linset
  cases s.w.env with
  | none => exact lines_refl s
  | some env =>
    dsimp only
    split
    · exact liny_bind (liny_succeed (ev := s.envActivate)) (fun _ => h0) s
    · exact h0 s

/-- The world is set before a piece of code. -/
theorem liny_w {m : SimM A} (h : Liny m) {s : Sim} {w : Mach} (hk : Gains s.w w) : Lines s (m { s with w := w }).1 :=
  lines_trans (lines_same (s' := { s with w := w }) le_rfl rfl rfl hk rfl rfl) (h { s with w := w })

theorem lines_localRun {name : String} {r : Out Mach YV Unit} {s : Sim} (hr : r.Moves Gains s.w) : Lines s (localRun name r s).1 := by
  have hset : ∀ (w : Mach) (f : Unit → SimM Res), Gains s.w w → Liny (f ()) → Lines s ((SimM.set (fun s => { s with w := w }) >>= f) s).1 := fun w f hk hf => liny_w hf hk
  cases r with
  | yield w y k =>
    cases y with
    | ev e => exact hset w _ hr.1 (by liny)
    | cont d => exact hset w _ hr.1 liny_pure
    | procs => exact hset w _ hr.1 liny_pure
    | nothing => exact hset w _ hr.1 liny_pure
  | ret w r => exact hset w _ hr liny_pure
  | raise w x => exact hset w _ hr liny_throw

theorem liny_resumed {name : String} {k : Mach → Out Mach YV Unit} (h : ∀ w, (k w).Moves Gains w) : Liny (do let w ← SimM.get Sim.w; localRun name (k w) : SimM Res) :=
  fun s => lines_localRun (h s.w)

theorem liny_localResume {name : String} {e : Ev} {k : Mach → Out Mach YV Unit} {x : Except PyErr SVal} (h : ∀ w, (k w).Moves Gains w) : Liny (localResume name e k x) := by
  unfold localResume
  split
  · exact liny_pure
  · exact liny_throw
  · exact liny_bind liny_print fun _ => liny_bind liny_activateProc fun _ => liny_bind liny_envInteraction fun _ => liny_resumed h

theorem liny_renew {name : String} : Liny (renewActivate name) := fun s => by
  show Lines s { s.alloc _ with activate := aset name s.next s.activate }
  have h := lines_alloc s ⟨Option.none, false, some []⟩
  refine ⟨⟨h.fits.next, fun n hn => ?_, h.fits.pts, rfl⟩, h.procs, h.own, h.shared⟩
  show (alook n (aset name s.next s.activate)).isSome = true
  rw [alook_aset]
  split
  · rfl
  · exact hn

theorem liny_envIter {e : EnvEvent} {k : Mach → Out Mach EnvEvent Unit} : Liny (envIter e k) := by unfold envIter; liny

theorem liny_envStart (C : Cfg) : Liny (envStart C) := fun s => by
  cases ha : s.envArgs with
  | none =>
    have : envStart C s = (s, .error .type) := by simp only [envStart, ha]
    rw [this]; exact lines_refl s
  | some a =>
    have hk := gains_env C.upper a.stimuli a.triggers a.times a.startTime s.w
    rcases ho : envProcess (fun env (w : Mach) => { w with env := some env }) envOf C.upper a.stimuli a.triggers a.times a.startTime s.w with ⟨w, e, k⟩ | ⟨w, r⟩ | ⟨w, x⟩
    · rw [ho] at hk
      have : envStart C s = envIter e k { s with w := w } := by simp only [envStart, ha, ho]
      rw [this]; exact liny_w liny_envIter hk.1
    · rw [ho] at hk
      have : envStart C s = (SimM.throw .runtime : SimM Res) { s with w := w } := by simp only [envStart, ha, ho]; rfl
      rw [this]; exact liny_w liny_throw hk
    · rw [ho] at hk
      have : envStart C s = (SimM.throw x : SimM Res) { s with w := w } := by simp only [envStart, ha, ho]; rfl
      rw [this]; exact liny_w liny_throw hk

theorem liny_startAutomatic {name : String} {i : ℕ} {d : Desc} : Liny (startAutomatic name i d) := by
  unfold startAutomatic
  refine liny_bind (fun s => lines_setStarted fun n => by rw [requestsFor_append]; exact List.prefix_append _ _) fun _ => ?_
  refine liny_bind liny_activateOf fun a => liny_bind liny_get fun busy => liny_ite (liny_bind liny_get fun old => ?_) (by liny)
  split <;> liny

theorem liny_automatic {name : String} : Liny (automatic name) := fun s => by
  unfold automatic
  split
  · exact lines_refl s
  · split
    · exact lines_refl s
    · exact liny_w liny_startAutomatic (gains_procs rfl)

theorem liny_automaticAll : ∀ l : List String, Liny (automaticAll l)
  | [] => liny_pure
  | _ :: r => liny_bind liny_automatic fun _ => liny_automaticAll r

theorem liny_envNext {pro : ℕ} : Liny (envNext pro) := by unfold envNext; liny

theorem liny_envAdvance {k : Mach → Out Mach EnvEvent Unit} (h : ∀ w, (k w).Moves Gains w) : Liny (envAdvance k) := fun s => by
  have hk := h s.w
  unfold envAdvance
  split
  · rename_i w _ ho; rw [ho] at hk; exact liny_w (liny_pure (a := Res.done .nothing)) hk
  · rename_i w x ho; rw [ho] at hk; exact liny_w (liny_throw (A := Res) (e := x)) hk
  · rename_i w e k' ho
    rw [ho] at hk
    exact liny_w (liny_bind (liny_automaticAll _) fun _ => liny_envIter) hk.1

theorem liny_envProcStart {e : Ev} : Liny (envProcStart e) := fun s => by
  unfold envProcStart
  have h1 := liny_timeout (d := e.time - s.now) s
  split
  · rename_i s1 t h
    rw [h] at h1
    exact h1
  · rename_i s1 x h
    rw [h] at h1
    exact lines_trans h1 (liny_bind (liny_activateProc (e := e)) (fun _ => liny_throw (A := Res) (e := x)) s1)

theorem liny_envProcResume {e : Ev} {x : Except PyErr SVal} : Liny (envProcResume e x) := by
  unfold envProcResume
  split
  · exact liny_bind liny_activateProc fun _ => liny_pure
  · exact liny_bind liny_activateProc fun _ => liny_throw
  · exact liny_bind liny_print fun _ => liny_bind liny_activateProc fun _ => liny_pure

theorem liny_notify (x : PItem) : Liny (notify x) := by
  cases x with
  | procedural => exact liny_throw
  | gen n i d =>
    unfold notify
    refine liny_bind liny_activateOf fun a => liny_bind liny_get fun busy => liny_ite (liny_bind liny_get fun old => ?_) (by liny)
    split <;> liny

theorem liny_notifyAll : ∀ l : List PItem, Liny (notifyAll l)
  | [] => liny_pure
  | x :: r => liny_bind (liny_notify x) fun _ => liny_notifyAll r

theorem liny_procSpins {n : ℕ} : Liny (procSpins n) := by unfold procSpins; liny

theorem liny_procCycle (C : Cfg) {pt : Pt} : Liny (procCycle C pt) := by unfold procCycle; liny

theorem liny_procLoop : Liny procLoop := fun s => by
  show Lines s ((SimM.bind (SimM.get Sim.startedList) _ : SimM Res) s).1
  unfold SimM.bind SimM.get
  dsimp only
  split
  · exact liny_bind (m := SimM.get Sim.startedList) liny_get (fun l => liny_bind (liny_notifyAll l) fun _ => liny_procSpins) _ |> lines_trans (lines_setStarted fun n => by rw [requestsFor_remove])
  · exact liny_bind liny_get (fun a => liny_bind liny_get fun gone => liny_ite liny_procSpins liny_pure) s

theorem liny_procsReturned {v : SVal} : Liny (procsReturned v) := fun s => by
  unfold procsReturned
  split
  · exact ⟨⟨le_rfl, fun _ h => h, fun _ _ h => h, rfl⟩, gains_refl _, fun _ _ => .inl rfl, fun _ => rfl⟩
  · exact lines_refl s

/-- The code of processes other than modules. -/
theorem liny_code (C : Cfg) {pt : Pt} {x : Except PyErr SVal} (hm : pt.module = Option.none) (h : pt.gains) : Liny (code C pt x) := by
  cases pt with
  | extraMain name pro => cases hm
  | extraCont name => cases hm
  | extraNew name => cases hm
  | extraIdle name => cases hm
  | localWait name e k => exact liny_localResume h
  | envProc e => exact liny_envProcResume
  | procNew => rcases x with x | v <;> [exact liny_throw; exact liny_procCycle C]
  | procFirst => rcases x with x | v <;> [exact liny_throw; exact liny_bind liny_procsReturned fun _ => liny_procLoop]
  | procIdle => rcases x with x | v <;> [exact liny_throw; exact liny_procSpins]
  | procSpin n => rcases x with x | v <;> [exact liny_throw; (rcases n with _ | n <;> [exact liny_procCycle C; exact liny_procSpins])]
  | procAgain =>
    rcases x with x | v <;> [exact liny_throw; skip]
    have h0 := liny_procLoop
    have h1 := liny_procsReturned (v := v)
    unfold code
    liny
  | localNew name g => rcases x with x | v <;> [exact liny_throw; exact liny_resumed h]
  | envNew => rcases x with x | v <;> [exact liny_throw; exact liny_envStart C]
  | envWait pro k => rcases x with x | v <;> [exact liny_throw; exact liny_bind liny_envNext fun _ => liny_envAdvance h]
  | envProcNew e => rcases x with x | v <;> [exact liny_throw; exact liny_envProcStart]

/-! ## Modules -/

theorem requestsFor_nil {n : String} : ∀ {l : List PItem}, (∀ j d, PItem.gen n j d ∉ l) → requestsFor n l = []
  | [], _ => rfl
  | .procedural :: r, h => requestsFor_nil (l := r) fun j d hm => h j d (.tail _ hm)
  | .gen m i d :: r, h => by
    have := requestsFor_nil (l := r) fun j d hm => h j d (.tail _ hm)
    unfold requestsFor
    rw [if_neg (fun he => h i d (by rw [he]; exact .head _)), this]

theorem requestsFor_take {n : String} {d : Desc} {l l' : List PItem} (h : TakesFirst n d l l') : (∃ i, requestsFor n l = (i, d) :: requestsFor n l') ∧ ∀ m, m ≠ n → requestsFor m l' = requestsFor m l := by
  obtain ⟨i, l1, l2, rfl, rfl, hn⟩ := h
  refine ⟨⟨i, ?_⟩, fun m hm => ?_⟩
  · rw [requestsFor_append, requestsFor_append, requestsFor_nil hn]
    simp [requestsFor]
  · rw [requestsFor_append, requestsFor_append]
    simp [requestsFor, Ne.symm hm]

/-- The module `name` has taken its first request, and a new process `pro` carries it out. -/
structure Took (C : Cfg) (name : String) (pro : ℕ) (s s' : Sim) : Prop where
  fits : Fitted s s'
  req : ∃ r : ℕ × Desc, requestsFor name s.startedList = r :: requestsFor name s'.startedList ∧ s'.points pro = some (.localNew name (r.2.run C))
  others : ∀ m, m ≠ name → requestsFor m s'.startedList = requestsFor m s.startedList
  own : s'.started.isSome = s.started.isSome
  procs : s.started.isSome → s'.w.procs = s.w.procs
  new : s.next ≤ pro

/-- After a change of something else. -/
theorem took_pre {C : Cfg} {name : String} {pro : ℕ} {s1 : Sim} (h1 : Fitted s s1) (h2 : s1.started = s.started) (h3 : s1.w = s.w) (h : Took C name pro s1 s') : Took C name pro s s' := by
  have hl : s1.startedList = s.startedList := by unfold Sim.startedList; rw [h2, h3]
  exact ⟨fitted_trans h1 h.fits, by rw [← hl]; exact h.req, by rw [← hl]; exact h.others, h.own.trans (by rw [h2]), fun hs => (h.procs (by rw [h2]; exact hs)).trans (by rw [h3]), h1.next.trans h.new⟩

/-- What the code of a module does. -/
def Serving (C : Cfg) (name : String) (s : Sim) (r : Sim × Except PyErr Res) : Prop :=
  Lines s r.1 ∨ ∃ pro, Took C name pro s r.1 ∧ r.2 = .ok (.wait pro (.extraMain name pro))

theorem serving_extraLoop (C : Cfg) {name : String} (ha : (alook name s.activate).isSome) : Serving C name s (extraLoop C name s) := by
  obtain ⟨a, ha⟩ := Option.isSome_iff_exists.1 ha
  have hm : extraLoop C name s = (match takeFor name s.startedList with
    | .error x => .throw x
    | .ok Option.none => do
      .set (fun s => { s with interruptibles := adel name s.interruptibles })
      let a ← activateOf name
      let gone ← SimM.get (·.processed a)
      if gone then do
        let a' ← renewActivate name
        pure (.wait a' (.extraIdle name))
      else pure (.wait a (.extraIdle name))
    | .ok (some ((_, d), rest)) => do
      .set (·.setStarted rest)
      let a ← activateOf name
      let busy ← SimM.get (·.triggered a)
      if busy then pure () else succeed a
      let pro ← process (.localNew name (d.run C))
      pure (.wait pro (.extraMain name pro)) : SimM Res) s := rfl
  rcases ht : takeFor name s.startedList with x | _ | ⟨⟨i, d⟩, rest⟩
  · rw [hm, ht]; exact .inl (lines_refl s)
  · rw [hm, ht]
    left
    have hr := liny_renew (name := name)
    have : Liny (do
      .set (fun s => { s with interruptibles := adel name s.interruptibles })
      let a ← activateOf name
      let gone ← SimM.get (·.processed a)
      if gone then do
        let a' ← renewActivate name
        pure (.wait a' (.extraIdle name))
      else pure (.wait a (.extraIdle name)) : SimM Res) := by liny
    exact this s
  · right
    obtain ⟨_, h1, h2, h3, h4, h5, h6, h7, h8, h9⟩ := aside_setStarted s rest
    have hl := startedList_setStarted s rest
    have ho : (s.setStarted rest).started.isSome = s.started.isSome := by
      unfold Sim.setStarted
      cases hs : s.started <;> simp [hs]
    have hp : s.started.isSome → (s.setStarted rest).w.procs = s.w.procs := fun h => by
      unfold Sim.setStarted
      cases hs : s.started with
      | none => rw [hs] at h; cases h
      | some _ => rfl
    have hs1 : ∃ s1 : Sim, extraLoop C name s = ((process (.localNew name (d.run C)) s1).1, .ok (.wait s1.next (.extraMain name s1.next))) ∧ s1.next = s.next ∧ s1.points = s.points ∧
        s1.activate = s.activate ∧ s1.extra = s.extra ∧ s1.started = (s.setStarted rest).started ∧ s1.w = (s.setStarted rest).w := by
      have h10 : activateOf name (s.setStarted rest) = (s.setStarted rest, .ok a) := by unfold activateOf; rw [h7, ha]
      have heq : extraLoop C name s = ((if (s.setStarted rest).triggered a then (do
          let pro ← process (.localNew name (d.run C))
          pure (.wait pro (.extraMain name pro))) else (do
          succeed a
          let pro ← process (.localNew name (d.run C))
          pure (.wait pro (.extraMain name pro))) : SimM Res)) (s.setStarted rest) := by
        rw [hm, ht]
        show SimM.bind (activateOf name) _ (s.setStarted rest) = _
        unfold SimM.bind
        rw [h10]
        rfl
      cases hb : (s.setStarted rest).triggered a with
      | true =>
        refine ⟨s.setStarted rest, ?_, h1, h2, h7, h6, rfl, rfl⟩
        rw [heq, hb]
        rfl
      | false =>
        refine ⟨(s.setStarted rest).trigger a (.ok .nothing), ?_, h1, h2, h7, h6, rfl, rfl⟩
        have h11 : succeed a (s.setStarted rest) = ((s.setStarted rest).trigger a (.ok .nothing), .ok ()) := by unfold succeed; rw [hb]; rfl
        rw [heq, hb]
        show SimM.bind (succeed a) _ (s.setStarted rest) = _
        unfold SimM.bind
        rw [h11]
        rfl
    obtain ⟨s1, heq, g1, g2, g3, g4, g5, g6⟩ := hs1
    have hp1 := liny_process (pt := .localNew name (d.run C)) (fun _ h => by cases h) s1
    obtain ⟨⟨j, hr⟩, hr'⟩ := requestsFor_take (takeFor_first ht)
    have hlist : (process (.localNew name (d.run C)) s1).1.startedList = rest := by
      rw [← hl]
      show s1.started.getD s1.w.procs = _
      rw [g5, g6]; rfl
    rw [heq]
    refine ⟨s1.next, ⟨fitted_trans ⟨g1.ge, fun n h => by rw [g3]; exact h, fun p n h => by rw [← g2]; exact h, g4⟩ hp1.fits, ⟨(j, d), ?_, ?_⟩, fun m hm => ?_, ?_, fun hs => ?_, g1.ge⟩, rfl⟩
    · rw [hlist]; exact hr
    · show fset s1.points s1.next _ s1.next = _
      rw [fset_same]
    · rw [hlist]; exact hr' m hm
    · show s1.started.isSome = _
      rw [g5]; exact ho
    · show s1.w.procs = _
      rw [g6]; exact hp hs

theorem serving_pre {C : Cfg} {name : String} {m : SimM A} {f : A → SimM Res} (hm : ∀ a, (m s).2 = .ok a → (m s).1.started = s.started ∧ (m s).1.w = s.w) (hl : Liny m)
    (hf : ∀ a, (m s).2 = .ok a → Serving C name (m s).1 (f a (m s).1)) : Serving C name s ((m >>= f) s) := by
  show Serving C name s (SimM.bind m f s)
  have h0 := hl s
  unfold SimM.bind
  rcases h : m s with ⟨s1, e | a⟩
  · rw [h] at h0; exact .inl h0
  · rw [h] at h0 hm hf
    obtain ⟨h1, h2⟩ := hm a rfl
    rcases hf a rfl with hf | ⟨pro, ht, he⟩
    · exact .inl (lines_trans h0 hf)
    · exact .inr ⟨pro, took_pre h0.fits h1 h2 ht, he⟩

theorem serving_extraAfterMain (C : Cfg) {name : String} {pro : ℕ} {x : Except PyErr SVal} (ha : (alook name s.activate).isSome) : Serving C name s (extraAfterMain C name pro x s) := by
  unfold extraAfterMain
  split
  · refine serving_pre (m := SimM.get (·.triggered pro)) (fun _ _ => ⟨rfl, rfl⟩) liny_get fun over _ => ?_
    split
    · exact serving_extraLoop C ha
    · refine serving_pre (m := interruptProcess pro) (fun _ _ => ?_) liny_interrupt fun _ _ => serving_extraLoop C ((liny_interrupt _).fits.act _ ha)
      unfold interruptProcess
      split <;> exact ⟨rfl, rfl⟩
  · exact .inl (lines_refl s)
  · exact .inl (liny_bind (liny_process (fun _ h => by cases h)) (fun _ => liny_pure) s)
  · exact serving_extraLoop C ha

theorem serving_extraAfterCont (C : Cfg) {name : String} {x : Except PyErr SVal} (ha : (alook name s.activate).isSome) : Serving C name s (extraAfterCont C name x s) := by
  unfold extraAfterCont
  split
  · exact serving_extraLoop C ha
  · exact .inl (lines_refl s)
  · exact serving_extraLoop C ha

theorem serving_code (C : Cfg) {name : String} {pt : Pt} {x : Except PyErr SVal} (hm : pt.module = some name) (ha : (alook name s.activate).isSome) : Serving C name s (code C pt x s) := by
  cases pt with
  | extraMain n pro => cases hm; exact serving_extraAfterMain C ha
  | extraCont n => cases hm; exact serving_extraAfterCont C ha
  | extraNew n => cases hm; rcases x with x | v <;> [exact .inl (lines_refl s); exact serving_extraLoop C ha]
  | extraIdle n =>
    cases hm
    rcases x with x | v <;> [exact .inl (lines_refl s); exact serving_pre (m := renewActivate name) (fun _ _ => ⟨rfl, rfl⟩) liny_renew fun _ _ => serving_extraLoop C ((liny_renew _).fits.act _ ha)]
  | localWait name e k => cases hm
  | envProc e => cases hm
  | procNew => cases hm
  | procFirst => cases hm
  | procIdle => cases hm
  | procSpin n => cases hm
  | procAgain => cases hm
  | localNew name g => cases hm
  | envNew => cases hm
  | envWait pro k => cases hm
  | envProcNew e => cases hm

end Verif
