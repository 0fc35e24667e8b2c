import Verif.Lemmas.SimReach
/-! # The process of the environment -/
namespace Verif
open Verif.Spec

variable {rf : ℚ} {s s' : Sim} {p : ℕ} {A B : Type}

/-! ## Code that leaves the environment alone -/

/-- The process of the environment (simulation.py:99-136). -/
def Pt.isEnv : Pt → Bool
  | .envNew => true
  | .envWait .. => true
  | _ => false

/-- Code that does not touch what the environment waits for, except by triggering it. -/
structure Gentle (s s' : Sim) : Prop where
  now : s'.now = s.now
  next : s.next ≤ s'.next
  env : s'.envActivate = s.envActivate
  points : ∀ p < s.next, s'.points p = s.points p
  target : ∀ p < s.next, s'.target p = s.target p
  newpts : ∀ p pt, s.next ≤ p → s'.points p = some pt → s.points p = some pt ∨ pt.isEnv = false
  value : ∀ ev < s.next, (s.events ev).value.isSome → (s'.events ev).value.isSome
  trig : ∀ ev < s.next, (s.events ev).value = Option.none → (s'.events ev).value.isSome → ∃ en ∈ s'.queue, en.ev = ev
  queue : ∀ en ∈ s.queue, en ∈ s'.queue
  newq : ∀ en ∈ s'.queue, en.ev < s.next → en ∈ s.queue ∨ en.time = s.now
  done : ∀ ev < s.next, (s'.events ev).callbacks = Option.none ↔ (s.events ev).callbacks = Option.none
  keep : ∀ ev cb, ev < s.next → cb ∈ s.cbs ev → cb ∈ s'.cbs ev
  stops : ∀ ev < s.next, .stop ∈ s'.cbs ev → .stop ∈ s.cbs ev
  builds : ∀ ev c a b, .build c a b ∈ s'.cbs ev → .build c a b ∈ s.cbs ev ∨ c = ev
  proc : s'.procActivate = s.procActivate ∨ s.next ≤ s'.procActivate

theorem gentle_refl (s : Sim) : Gentle s s :=
  ⟨rfl, le_rfl, rfl, fun _ _ => rfl, fun _ _ => rfl, fun _ _ _ h => .inl h, fun _ _ h => h, fun _ _ h h' => (by rw [h] at h'; cases h'), fun _ h => h, fun _ h _ => .inl h,
    fun _ _ => .rfl, fun _ _ _ h => h, fun _ _ h => h, fun _ _ _ _ h => .inl h, .inl rfl⟩

theorem gentle_trans {a b c : Sim} (h1 : Gentle a b) (h2 : Gentle b c) : Gentle a c := by
  have hlt : ∀ {x}, x < a.next → x < b.next := fun h => h.trans_le h1.next
  refine ⟨h2.now.trans h1.now, h1.next.trans h2.next, h2.env.trans h1.env, fun p hp => (h2.points p (hlt hp)).trans (h1.points p hp),
    fun p hp => (h2.target p (hlt hp)).trans (h1.target p hp), fun p pt hp hpt => ?_, fun ev hev h => h2.value ev (hlt hev) (h1.value ev hev h), fun ev hev hn hs => ?_,
    fun en h => h2.queue en (h1.queue en h), fun en hen hev => ?_, fun ev hev => (h2.done ev (hlt hev)).trans (h1.done ev hev), fun ev cb hev h => h2.keep ev cb (hlt hev) (h1.keep ev cb hev h),
    fun ev hev h => h1.stops ev hev (h2.stops ev (hlt hev) h), fun ev c a' b' h => ?_, ?_⟩
  · by_cases hb : p < b.next
    · rw [h2.points p hb] at hpt; exact h1.newpts p pt hp hpt
    · rcases h2.newpts p pt (not_lt.1 hb) hpt with h | h
      · exact h1.newpts p pt hp h
      · exact .inr h
  · cases hb : (b.events ev).value with
    | none => exact h2.trig ev (hlt hev) hb hs
    | some v =>
      obtain ⟨en, hen, he⟩ := h1.trig ev hev hn (by rw [hb]; rfl)
      exact ⟨en, h2.queue en hen, he⟩
  · rcases h2.newq en hen (hlt hev) with h | h
    · exact h1.newq en h hev
    · exact .inr (h.trans h1.now)
  · rcases h2.builds ev c a' b' h with h | h
    · exact h1.builds ev c a' b' h
    · exact .inr h
  · rcases h2.proc with h | h
    · rw [h]; exact h1.proc
    · exact .inr (h1.next.trans h)

/-- A piece of code is gentle, and its result satisfies `Q`. -/
def Steady (m : SimM A) (Q : A → Prop) : Prop := ∀ s, Gentle s (m s).1 ∧ ∀ a, (m s).2 = .ok a → Q a

theorem steady_bind {m : SimM A} {f : A → SimM B} {Q : A → Prop} {Q' : B → Prop} (hm : Steady m Q) (hf : ∀ a, Q a → Steady (f a) Q') : Steady (m >>= f) Q' := by
  intro s
  show Gentle s (SimM.bind m f s).1 ∧ ∀ b, (SimM.bind m f s).2 = .ok b → Q' b
  unfold SimM.bind
  obtain ⟨h1, h2⟩ := hm s
  rcases h : m s with ⟨s1, e | a⟩
  · rw [h] at h1; exact ⟨h1, by simp⟩
  · rw [h] at h1 h2
    obtain ⟨h3, h4⟩ := hf a (h2 a rfl) s1
    exact ⟨gentle_trans h1 h3, h4⟩

theorem steady_pure {a : A} {Q : A → Prop} (h : Q a) : Steady (pure a) Q := fun s => ⟨gentle_refl s, fun b hb => by cases hb; exact h⟩
theorem steady_throw {e : PyErr} {Q : A → Prop} : Steady (SimM.throw e : SimM A) Q := fun s => ⟨gentle_refl s, fun b hb => by cases hb⟩
theorem steady_get {f : Sim → A} : Steady (SimM.get f) (fun _ => True) := fun s => ⟨gentle_refl s, fun _ _ => trivial⟩

/-- Assignments to other attributes. -/
theorem gentle_set (hn : s'.now = s.now) (hx : s'.next = s.next) (he : s'.envActivate = s.envActivate) (hp : s'.points = s.points)
    (ht : s'.target = s.target) (hv : s'.events = s.events) (hq : s'.queue = s.queue) (hpr : s'.procActivate = s.procActivate ∨ s.next ≤ s'.procActivate) : Gentle s s' := by
  refine ⟨hn, hx.ge, he, fun p _ => by rw [hp], fun p _ => by rw [ht], fun p pt _ h => .inl (by rwa [hp] at h), fun ev _ h => by rw [hv]; exact h, fun ev _ h h' => ?_, fun en h => by rw [hq]; exact h,
    fun en h _ => .inl (by rwa [hq] at h), fun ev _ => by rw [hv], fun ev cb _ h => ?_, fun ev _ h => ?_, fun ev c a b h => .inl ?_, hpr⟩
  · rw [hv, h] at h'; cases h'
  · unfold Sim.cbs at *; rw [hv]; exact h
  · unfold Sim.cbs at *; rw [hv] at h; exact h
  · unfold Sim.cbs at *; rw [hv] at h; exact h

theorem gentle_alloc {E : SEv} (hb : ∀ c a b, .build c a b ∈ E.callbacks.getD [] → c = s.next) : Gentle s (s.alloc E) := by
  have ho : ∀ {ev}, ev < s.next → (s.alloc E).events ev = s.events ev := fun h => events_alloc_old (Nat.ne_of_lt h)
  have hc : ∀ {ev}, ev < s.next → (s.alloc E).cbs ev = s.cbs ev := fun h => cbs_alloc_old (Nat.ne_of_lt h)
  refine ⟨rfl, Nat.le_succ _, rfl, fun _ _ => rfl, fun _ _ => rfl, fun _ _ _ h => .inl h, fun ev hev h => by rw [ho hev]; exact h, fun ev hev h h' => ?_, fun _ h => h, fun _ h _ => .inl h,
    fun ev hev => by rw [ho hev], fun ev cb hev h => by rw [hc hev]; exact h, fun ev hev h => by rwa [hc hev] at h, fun ev c a b h => ?_, .inl rfl⟩
  · rw [ho hev, h] at h'; cases h'
  · by_cases he : ev = s.next
    · subst he; rw [cbs_alloc_new] at h; exact .inr (hb c a b h)
    · rw [cbs_alloc_old he] at h; exact .inl h

/-- Something is scheduled for now, or a new event. -/
theorem gentle_schedule {s0 : Sim} {ev : ℕ} {u : Bool} {d : ℚ} (h : Gentle s0 s) (hd : ev < s0.next → d = 0) : Gentle s0 (s.schedule ev u d) := by
  refine ⟨h.now, h.next, h.env, h.points, h.target, h.newpts, h.value, fun x hx hn hs => ?_, fun en hen => (mem_insertEntry _ _ _).2 (.inr (h.queue en hen)), fun en hen hlt => ?_,
    h.done, h.keep, h.stops, h.builds, h.proc⟩
  · obtain ⟨en, hen, he⟩ := h.trig x hx hn hs
    exact ⟨en, (mem_insertEntry _ _ _).2 (.inr hen), he⟩
  · rcases (mem_insertEntry _ _ _).1 hen with rfl | hen
    · right; show s.now + d = s0.now; rw [hd hlt, h.now, add_zero]
    · exact h.newq en hen hlt

theorem gentle_trigger {ev : ℕ} {v : Except PyErr SVal} : Gentle s (s.trigger ev v) := by
  have hval : ∀ x, ((s.trigger ev v).events x).value = if x = ev then some v else (s.events x).value := fun x => by
    by_cases h : x = ev
    · subst h; simp [Sim.trigger, Sim.schedule, fset]
    · simp [Sim.trigger, Sim.schedule, fset, h]
  have hcb : ∀ x, ((s.trigger ev v).events x).callbacks = (s.events x).callbacks := fun x => by
    by_cases h : x = ev
    · subst h; simp [Sim.trigger, Sim.schedule, fset]
    · simp [Sim.trigger, Sim.schedule, fset, h]
  have hc : ∀ x, (s.trigger ev v).cbs x = s.cbs x := fun x => by unfold Sim.cbs; rw [hcb]
  refine ⟨rfl, le_rfl, rfl, fun _ _ => rfl, fun _ _ => rfl, fun _ _ _ h => .inl h, fun x _ h => ?_, fun x _ hn hs => ?_, fun en hen => (mem_insertEntry _ _ _).2 (.inr hen), fun en hen _ => ?_,
    fun x _ => by rw [hcb], fun x cb _ h => by rw [hc]; exact h, fun x _ h => by rwa [hc] at h, fun x c a b h => .inl (by rwa [hc] at h), .inl rfl⟩
  · rw [hval]; split <;> [rfl; exact h]
  · rw [hval] at hs
    split at hs
    · rename_i he; subst he
      exact ⟨⟨s.now + 0, false, x⟩, (mem_insertEntry _ _ _).2 (.inl rfl), rfl⟩
    · rw [hn] at hs; cases hs
  · rcases (mem_insertEntry _ _ _).1 hen with rfl | hen
    · right; exact add_zero s.now
    · exact .inl hen

theorem gentle_add {ev : ℕ} {cb : Callback} (hs : cb ≠ .stop) (hb : ∀ c a b, cb ≠ .build c a b) : Gentle s (s.addCallback ev cb) := by
  refine ⟨rfl, le_rfl, rfl, fun _ _ => rfl, fun _ _ => rfl, fun _ _ _ h => .inl h, fun x _ h => by rw [value_addCallback]; exact h, fun x _ h h' => ?_, fun _ h => h, fun _ h _ => .inl h,
    fun x _ => ?_, fun x d _ h => mem_addCallback_old h, fun x _ h => ?_, fun x c a b h => ?_, .inl rfl⟩
  · rw [value_addCallback, h] at h'; cases h'
  · by_cases he : x = ev
    · subst he; simp [Sim.addCallback, fset]
    · simp [Sim.addCallback, fset, he]
  · rcases mem_addCallback h with h | ⟨h, _⟩
    · exact h
    · exact absurd h.symm hs
  · rcases mem_addCallback h with h | ⟨h, _⟩
    · exact .inl h
    · exact absurd h.symm (hb c a b)

theorem gentle_defuse {ev : ℕ} : Gentle s (s.defuse ev) := by
  have hv : ∀ x, ((s.defuse ev).events x).value = (s.events x).value := fun x => by
    by_cases h : x = ev
    · subst h; simp [Sim.defuse, fset]
    · simp [Sim.defuse, fset, h]
  have hcb : ∀ x, ((s.defuse ev).events x).callbacks = (s.events x).callbacks := fun x => by
    by_cases h : x = ev
    · subst h; simp [Sim.defuse, fset]
    · simp [Sim.defuse, fset, h]
  have hc : ∀ x, (s.defuse ev).cbs x = s.cbs x := fun x => by unfold Sim.cbs; rw [hcb]
  refine ⟨rfl, le_rfl, rfl, fun _ _ => rfl, fun _ _ => rfl, fun _ _ _ h => .inl h, fun x _ h => by rw [hv]; exact h, fun x _ h h' => ?_, fun _ h => h, fun _ h _ => .inl h,
    fun x _ => by rw [hcb], fun x cb _ h => by rw [hc]; exact h, fun x _ h => by rwa [hc] at h, fun x c a b h => .inl (by rwa [hc] at h), .inl rfl⟩
  rw [hv, h] at h'; cases h'

theorem steady_newEvent : Steady newEvent (fun _ => True) := fun s => ⟨gentle_alloc (by simp), fun _ _ => trivial⟩

theorem steady_succeed {ev : ℕ} : Steady (succeed ev) (fun _ => True) := fun s => by
  refine ⟨?_, fun _ _ => trivial⟩
  unfold succeed
  split
  · exact gentle_refl s
  · exact gentle_trigger

theorem steady_timeout {d : ℚ} : Steady (timeout d) (fun _ => True) := fun s => by
  refine ⟨?_, fun _ _ => trivial⟩
  unfold timeout
  split
  · exact gentle_refl s
  · exact gentle_schedule (gentle_alloc (by simp)) fun h => absurd h (lt_irrefl _)

theorem steady_interrupt {q : ℕ} : Steady (interruptProcess q) (fun _ => True) := fun s => by
  refine ⟨?_, fun _ _ => trivial⟩
  unfold interruptProcess
  split
  · exact gentle_refl s
  · exact gentle_schedule (gentle_alloc (by simp)) fun h => absurd h (lt_irrefl _)

theorem gentle_process {pt : Pt} (hpt : pt.isEnv = false) : Gentle s (process pt s).1 := by
  have h : Gentle s (((s.alloc ⟨Option.none, false, some []⟩).alloc ⟨some (.ok .nothing), false, some [.resume s.next]⟩).schedule (s.next + 1) true 0) :=
    gentle_schedule (gentle_trans (gentle_alloc (by simp)) (gentle_alloc (by simp))) fun h => absurd h (by omega)
  refine ⟨h.now, h.next, h.env, fun q hq => ?_, fun q hq => ?_, fun q pt' hq hq' => ?_, h.value, h.trig, h.queue, h.newq, h.done, h.keep, h.stops, h.builds, h.proc⟩
  · show fset _ s.next _ q = _
    rw [fset_other _ _ (Nat.ne_of_lt hq)]; rfl
  · show fset _ s.next _ q = _
    rw [fset_other _ _ (Nat.ne_of_lt hq)]; rfl
  · change fset s.points s.next (some pt) q = some pt' at hq'
    by_cases he : q = s.next
    · subst he; rw [fset_same] at hq'; cases hq'; exact .inr hpt
    · rw [fset_other _ _ he] at hq'; exact .inl hq'

theorem steady_process {pt : Pt} (hpt : pt.isEnv = false) : Steady (process pt) (fun _ => True) := fun _ => ⟨gentle_process hpt, fun _ _ => trivial⟩

/-- Proves that assignments leave the environment alone. -/
macro "gentle" : tactic => `(tactic| exact fun s => ⟨gentle_set rfl rfl rfl rfl rfl rfl rfl (.inl rfl), fun _ _ => trivial⟩)

theorem steady_w {w : Mach} : Steady (SimM.set (fun s => { s with w := w })) (fun _ => True) := by gentle

theorem steady_print {e : Ev} : Steady (printEvent e) (fun _ => True) := by
  rcases printEvent_cases e with ⟨_, he⟩ | ⟨_, he⟩ <;> rw [he]
  · exact steady_pure trivial
  · gentle

/-- A new event takes the place of the one that activated the rules. -/
theorem steady_renewProc {f : Unit → SimM A} {Q : A → Prop} (hf : ∀ u, Steady (f u) Q) :
    Steady (do let a ← newEvent; SimM.bind (SimM.set fun s => { s with procActivate := a }) f) Q := by
  intro s
  set s1 : Sim := { s.alloc ⟨Option.none, false, some []⟩ with procActivate := s.next } with hs1
  obtain ⟨h1, h2⟩ := hf () s1
  have hg := gentle_alloc (s := s) (E := ⟨Option.none, false, some []⟩) (by simp)
  exact ⟨gentle_trans (b := s1) ⟨hg.now, hg.next, hg.env, hg.points, hg.target, hg.newpts, hg.value, hg.trig, hg.queue, hg.newq, hg.done, hg.keep, hg.stops, hg.builds, .inr le_rfl⟩ h1, h2⟩

theorem steady_activateProc {e : Ev} : Steady (activateProc e) (fun _ => True) := by
  rcases activateProc_cases e with he | he <;> rw [he]
  · exact steady_pure trivial
  · intro s
    refine ⟨?_, fun _ _ => trivial⟩
    dsimp only
    split
    · exact gentle_refl s
    · exact (steady_succeed s).1

theorem steady_envInteraction : Steady envInteraction (fun _ => True) := by
  intro s
  refine ⟨?_, fun _ _ => trivial⟩
  unfold envInteraction
  split
  · exact gentle_refl s
  · dsimp only
    have hf : Steady (SimM.set fun s : Sim => { s with w := { s.w with interaction := [] } }) (fun _ => True) := by gentle
    split
    · exact (steady_bind steady_succeed (fun _ _ => hf) s).1
    · exact (hf s).1

/-- Not the process of the environment. -/
def NotEnv : Res → Prop
  | .wait _ pt => pt.isEnv = false
  | .done _ => True

theorem steady_localRun {name : String} {o : Out Mach YV Unit} : Steady (localRun name o) NotEnv := by
  cases o with
  | yield w y k =>
    cases y with
    | ev e => exact steady_bind steady_w fun _ _ => steady_bind steady_get fun _ _ => steady_bind steady_timeout fun _ _ => steady_pure rfl
    | cont d => exact steady_bind steady_w fun _ _ => steady_pure trivial
    | procs => exact steady_bind steady_w fun _ _ => steady_pure trivial
    | nothing => exact steady_bind steady_w fun _ _ => steady_pure trivial
  | ret w _ => exact steady_bind steady_w fun _ _ => steady_pure trivial
  | raise w x => exact steady_bind steady_w fun _ _ => steady_throw

theorem steady_localResume {name : String} {e : Ev} {k : Mach → Out Mach YV Unit} {x : Except PyErr SVal} : Steady (localResume name e k x) NotEnv := by
  unfold localResume
  split
  · exact steady_pure trivial
  · exact steady_throw
  · exact steady_bind steady_print fun _ _ => steady_bind steady_activateProc fun _ _ => steady_bind steady_envInteraction fun _ _ => steady_bind steady_get fun _ _ => steady_localRun

theorem steady_activateOf {name : String} : Steady (activateOf name) (fun _ => True) := by
  intro s
  refine ⟨?_, fun _ _ => trivial⟩
  unfold activateOf
  split <;> exact gentle_refl s

theorem steady_renew {name : String} : Steady (renewActivate name) (fun _ => True) :=
  steady_bind steady_newEvent fun _ _ => steady_bind (Q := fun _ => True) (by gentle) fun _ _ => steady_pure trivial

theorem steady_setStarted {l : List PItem} : Steady (SimM.set (·.setStarted l)) (fun _ => True) := by
  intro s
  refine ⟨?_, fun _ _ => trivial⟩
  show Gentle s (s.setStarted l)
  unfold Sim.setStarted
  split
  · exact gentle_set rfl rfl rfl rfl rfl rfl rfl (.inl rfl)
  · exact gentle_set rfl rfl rfl rfl rfl rfl rfl (.inl rfl)

theorem steady_extraLoop (C : Cfg) {name : String} : Steady (extraLoop C name) NotEnv := by
  unfold extraLoop
  refine steady_bind steady_get fun l _ => ?_
  split
  · exact steady_throw
  · refine steady_bind (Q := fun _ => True) (by gentle) fun _ _ => steady_bind steady_activateOf fun a _ => steady_bind steady_get fun g _ => ?_
    split
    · exact steady_bind steady_renew fun _ _ => steady_pure rfl
    · exact steady_pure rfl
  · refine steady_bind steady_setStarted fun _ _ => steady_bind steady_activateOf fun a _ => steady_bind steady_get fun g _ => ?_
    have hp : ∀ pt : Pt, pt.isEnv = false → Steady (do let pro ← process pt; pure (.wait pro (.extraMain name pro))) NotEnv :=
      fun pt h => steady_bind (steady_process h) fun _ _ => steady_pure rfl
    dsimp only
    split
    · exact hp _ rfl
    · exact steady_bind steady_succeed fun _ _ => hp _ rfl

theorem steady_extraAfterMain (C : Cfg) {name : String} {pro : ℕ} {x : Except PyErr SVal} : Steady (extraAfterMain C name pro x) NotEnv := by
  unfold extraAfterMain
  split
  · refine steady_bind steady_get fun g _ => ?_
    dsimp only
    split
    · exact steady_extraLoop C
    · exact steady_bind steady_interrupt fun _ _ => steady_extraLoop C
  · exact steady_throw
  · exact steady_bind (steady_process rfl) fun _ _ => steady_pure rfl
  · exact steady_extraLoop C

theorem steady_extraAfterCont (C : Cfg) {name : String} {x : Except PyErr SVal} : Steady (extraAfterCont C name x) NotEnv := by
  unfold extraAfterCont
  split
  · exact steady_extraLoop C
  · exact steady_throw
  · exact steady_extraLoop C

theorem steady_interruptExtra {name : String} : Steady (interruptExtra name) (fun _ => True) := by
  intro s
  refine ⟨?_, fun _ _ => trivial⟩
  unfold interruptExtra
  split
  · exact (steady_interrupt s).1
  · exact gentle_refl s

theorem steady_notify {x : PItem} : Steady (notify x) (fun _ => True) := by
  cases x with
  | procedural => exact steady_throw
  | gen name i d =>
    unfold notify
    refine steady_bind steady_activateOf fun a _ => steady_bind steady_get fun g _ => ?_
    split
    · refine steady_bind steady_get fun o _ => ?_
      split
      · exact steady_pure trivial
      · split
        · exact steady_pure trivial
        · exact steady_bind (Q := fun _ => True) (by gentle) fun _ _ => steady_interruptExtra
    · dsimp only
      split
      · exact steady_bind (Q := fun _ => True) (by gentle) fun _ _ => steady_succeed
      · exact steady_succeed

theorem steady_notifyAll : ∀ l : List PItem, Steady (notifyAll l) (fun _ => True)
  | [] => steady_pure trivial
  | _ :: r => steady_bind steady_notify fun _ _ => steady_notifyAll r

theorem steady_procSpins {n : ℕ} : Steady (procSpins n) NotEnv := steady_bind steady_timeout fun _ _ => steady_pure rfl

theorem steady_procCycle (C : Cfg) {pt : Pt} (h : pt.isEnv = false) : Steady (procCycle C pt) NotEnv :=
  steady_bind steady_get fun _ _ => steady_bind (steady_process rfl) fun _ _ => steady_pure h

theorem steady_procLoop : Steady procLoop NotEnv := by
  unfold procLoop
  refine steady_bind steady_get fun l _ => ?_
  split
  · exact steady_bind steady_setStarted fun _ _ => steady_bind steady_get fun l _ => steady_bind (steady_notifyAll l) fun _ _ => steady_procSpins
  · refine steady_bind steady_get fun a _ => steady_bind steady_get fun g _ => ?_
    split
    · exact steady_procSpins
    · exact steady_pure rfl

theorem steady_procsReturned {v : SVal} : Steady (procsReturned v) (fun _ => True) := by
  unfold procsReturned
  split
  · gentle
  · exact steady_throw

theorem steady_startAutomatic {name : String} {i : ℕ} {d : Desc} : Steady (startAutomatic name i d) (fun _ => True) := by
  unfold startAutomatic
  refine steady_bind (Q := fun _ => True) (fun s => ?_) fun _ _ => steady_bind steady_activateOf fun a _ => steady_bind steady_get fun g _ => ?_
  · exact ⟨(steady_setStarted s).1, fun _ _ => trivial⟩
  · split
    · refine steady_bind steady_get fun o _ => ?_
      split
      · exact steady_throw
      · exact steady_bind (Q := fun _ => True) (by gentle) fun _ _ => steady_interruptExtra
    · exact steady_bind (Q := fun _ => True) (by gentle) fun _ _ => steady_succeed

theorem steady_automatic {name : String} : Steady (automatic name) (fun _ => True) := by
  intro s
  refine ⟨?_, fun _ _ => trivial⟩
  unfold automatic
  split
  · exact gentle_refl s
  · split
    · exact gentle_refl s
    · exact gentle_trans (gentle_set (s' := { s with w := { s.w with nextId := s.w.nextId + 1 } }) rfl rfl rfl rfl rfl rfl rfl (.inl rfl)) (steady_startAutomatic _).1

theorem steady_automaticAll : ∀ l : List String, Steady (automaticAll l) (fun _ => True)
  | [] => steady_pure trivial
  | _ :: r => steady_bind steady_automatic fun _ _ => steady_automaticAll r

theorem steady_envProcStart {e : Ev} : Steady (envProcStart e) NotEnv := by
  intro s
  unfold envProcStart
  have h := (steady_timeout (d := e.time - s.now) s).1
  rcases ht : timeout (e.time - s.now) s with ⟨s1, x | t⟩
  · rw [ht] at h
    have := (steady_bind (steady_activateProc (e := e)) (fun _ _ => steady_throw (A := Res) (e := x) (Q := NotEnv))) s1
    exact ⟨gentle_trans h this.1, this.2⟩
  · rw [ht] at h
    exact ⟨h, fun a ha => by cases ha; rfl⟩

theorem steady_envProcResume {e : Ev} {x : Except PyErr SVal} : Steady (envProcResume e x) NotEnv := by
  unfold envProcResume
  split
  · exact steady_bind steady_activateProc fun _ _ => steady_pure trivial
  · exact steady_bind steady_activateProc fun _ _ => steady_throw
  · exact steady_bind steady_print fun _ _ => steady_bind steady_activateProc fun _ _ => steady_pure trivial

/-- All processes but the environment. -/
theorem steady_code (C : Cfg) {pt : Pt} {x : Except PyErr SVal} (h : pt.isEnv = false) : Steady (code C pt x) NotEnv := by
  cases pt with
  | procNew => cases x <;> [exact steady_throw; exact steady_procCycle C rfl]
  | procFirst => cases x <;> [exact steady_throw; exact steady_bind steady_procsReturned fun _ _ => steady_procLoop]
  | procIdle => cases x <;> [exact steady_throw; exact steady_procSpins]
  | procSpin n =>
    cases x
    · exact steady_throw
    · cases n <;> [exact steady_procCycle C rfl; exact steady_procSpins]
  | procAgain =>
    cases x
    · exact steady_throw
    · exact steady_bind steady_procsReturned fun _ _ => steady_renewProc fun _ => steady_procLoop
  | extraNew name => cases x <;> [exact steady_throw; exact steady_extraLoop C]
  | extraIdle name => cases x <;> [exact steady_throw; exact steady_bind steady_renew fun _ _ => steady_extraLoop C]
  | extraMain name pro => cases x <;> exact steady_extraAfterMain C
  | extraCont name => cases x <;> exact steady_extraAfterCont C
  | localNew name g => cases x <;> [exact steady_throw; exact steady_bind steady_get fun _ _ => steady_localRun]
  | localWait name e k => cases x <;> exact steady_localResume
  | envNew => cases h
  | envWait pro k => cases h
  | envProcNew e => cases x <;> [exact steady_throw; exact steady_envProcStart]
  | envProc e => cases x <;> exact steady_envProcResume

/-! ## What the environment waits for -/

/-- About the event that key presses trigger. -/
structure Global (s : Sim) : Prop where
  lt : s.envActivate < s.next
  fresh : ∀ p pt, s.next ≤ p → s.points p = some pt → pt.isEnv = false
  time : ∀ en ∈ s.queue, en.ev = s.envActivate → en.time = s.now
  sched : (s.events s.envActivate).value.isSome → (∃ en ∈ s.queue, en.ev = s.envActivate) ∨ (s.events s.envActivate).callbacks = Option.none
  nostop : .stop ∉ s.cbs s.envActivate
  one : ∀ p q pt pt', s.points p = some pt → s.points q = some pt' → pt.isEnv = true → pt'.isEnv = true → p = q
  builds : ∀ ev c a b, .build c a b ∈ s.cbs ev → c = ev
  apart : s.envActivate ≠ s.procActivate

/-- About the event `c` that the process `p` of the environment waits for, while the callbacks `l` of `ev` are still to be called. -/
structure Watch (s : Sim) (ev : ℕ) (l : List Callback) (p c : ℕ) : Prop where
  lt : c < s.next
  wake : .resume p ∈ s.cbs c ∨ (ev = c ∧ .resume p ∈ l)
  check : (s.events c).value = Option.none → .check c ∈ s.cbs s.envActivate ∨ (ev = s.envActivate ∧ .check c ∈ l)
  sched : (s.events c).value.isSome → (∃ en ∈ s.queue, en.ev = c) ∨ (ev = c ∧ .resume p ∈ l)
  time : ∀ en ∈ s.queue, en.ev = c → en.time = s.now
  nostop : .stop ∉ s.cbs c

/-- Both. -/
def Watched (ev : ℕ) (l : List Callback) (s : Sim) : Prop :=
  Global s ∧ ∀ p pro k, s.points p = some (.envWait pro k) → Watch s ev l p (s.target p)

variable {ev c : ℕ} {l : List Callback}

theorem global_gentle (h : Global s) (hg : Gentle s s') : Global s' := by
  have hlt := h.lt
  refine ⟨by rw [hg.env]; exact h.lt.trans_le hg.next, fun p pt hp hpt => ?_, fun en hen he => ?_, fun hv => ?_, fun hs => ?_, fun p q pt pt' hp hq h1 h2 => ?_, fun x c a b hb => ?_, ?_⟩
  · rcases hg.newpts p pt (hg.next.trans hp) hpt with h1 | h1
    · exact h.fresh p pt (hg.next.trans hp) h1
    · exact h1
  · rw [hg.env] at he
    rw [hg.now]
    rcases hg.newq en hen (by rw [he]; exact hlt) with h1 | h1
    · exact h.time en h1 he
    · exact h1
  · rw [hg.env] at hv ⊢
    rw [hg.done _ hlt]
    cases hn : (s.events s.envActivate).value with
    | none => exact .inl (hg.trig _ hlt hn hv)
    | some v =>
      rcases h.sched (by rw [hn]; rfl) with ⟨en, hen, he⟩ | h1
      · exact .inl ⟨en, hg.queue en hen, he⟩
      · exact .inr h1
  · rw [hg.env] at hs; exact h.nostop (hg.stops _ hlt hs)
  · have hold : ∀ x pt, s'.points x = some pt → pt.isEnv = true → s.points x = some pt := fun x pt hx he => by
      by_cases hxn : x < s.next
      · rwa [hg.points x hxn] at hx
      · rcases hg.newpts x pt (not_lt.1 hxn) hx with h1 | h1
        · exact h1
        · rw [he] at h1; cases h1
    exact h.one p q pt pt' (hold p pt hp h1) (hold q pt' hq h2) h1 h2
  · rcases hg.builds x c a b hb with h1 | h1
    · exact h.builds x c a b h1
    · exact h1
  · rw [hg.env]
    rcases hg.proc with h1 | h1
    · rw [h1]; exact h.apart
    · exact Nat.ne_of_lt (hlt.trans_le h1)

theorem watch_gentle (h : Watch s ev l p c) (ha : s.envActivate < s.next) (hg : Gentle s s') : Watch s' ev l p c := by
  refine ⟨h.lt.trans_le hg.next, h.wake.imp_left (hg.keep c _ h.lt), fun hv => ?_, fun hv => ?_, fun en hen he => ?_, fun hs => h.nostop (hg.stops c h.lt hs)⟩
  · have hn : (s.events c).value = Option.none := by
      by_contra hc
      obtain ⟨v, hc⟩ := Option.ne_none_iff_exists'.1 hc
      have := hg.value c h.lt (by rw [hc]; rfl)
      rw [hv] at this; cases this
    rw [hg.env]
    exact (h.check hn).imp_left (hg.keep _ _ ha)
  · cases hn : (s.events c).value with
    | none => exact .inl (hg.trig c h.lt hn hv)
    | some v =>
      refine (h.sched (by rw [hn]; rfl)).imp_left ?_
      rintro ⟨en, hen, he⟩
      exact ⟨en, hg.queue en hen, he⟩
  · rw [hg.now]
    rcases hg.newq en hen (by rw [he]; exact h.lt) with h1 | h1
    · exact h.time en h1 he
    · exact h1

theorem watched_gentle (h : Watched ev l s) (hg : Gentle s s') : Watched ev l s' := by
  refine ⟨global_gentle h.1 hg, fun p pro k hp => ?_⟩
  have hp' : p < s.next := by
    by_contra hc
    rcases hg.newpts p _ (not_lt.1 hc) hp with h1 | h1
    · have := h.1.fresh p _ (not_lt.1 hc) h1; cases this
    · cases h1
  rw [hg.points p hp'] at hp
  rw [hg.target p hp']
  exact watch_gentle (h.2 p pro k hp) h.1.lt hg

/-- A callback that has been called does not matter unless it is one of two. -/
theorem watch_tail {cb : Callback} (h : Watch s ev (cb :: l) p c) (h1 : ev = c → cb ≠ .resume p) (h2 : ev = s.envActivate → cb ≠ .check c) : Watch s ev l p c := by
  refine ⟨h.lt, h.wake.imp_right ?_, fun hv => (h.check hv).imp_right ?_, fun hv => (h.sched hv).imp_right ?_, h.time, h.nostop⟩
  · rintro ⟨he, hm⟩; exact ⟨he, (List.mem_cons.1 hm).resolve_left (h1 he).symm⟩
  · rintro ⟨he, hm⟩; exact ⟨he, (List.mem_cons.1 hm).resolve_left (h2 he).symm⟩
  · rintro ⟨he, hm⟩; exact ⟨he, (List.mem_cons.1 hm).resolve_left (h1 he).symm⟩

/-- The process `q`, which is not the environment, gets to another place. -/
theorem watched_move {q : ℕ} {o : Option Pt} {t : ℕ} (h : Watched ev l s) (hq : q < s.next) (ho : ∀ pt, o = some pt → pt.isEnv = false)
    (hne : ∀ pt, s.points q = some pt → pt.isEnv = false) :
    Watched ev l ({ s with points := fset s.points q o, target := fset s.target q t } : Sim) := by
  have hold : ∀ x pt, fset s.points q o x = some pt → pt.isEnv = true → x ≠ q ∧ s.points x = some pt := fun x pt hx he => by
    by_cases hxq : x = q
    · subst hxq; rw [fset_same] at hx
      have := ho pt hx; rw [he] at this; cases this
    · rw [fset_other _ _ hxq] at hx; exact ⟨hxq, hx⟩
  refine ⟨⟨h.1.lt, fun p pt hp hpt => ?_, h.1.time, h.1.sched, h.1.nostop, fun p p' pt pt' hp hp' h1 h2 =>
    h.1.one p p' pt pt' (hold p pt hp h1).2 (hold p' pt' hp' h2).2 h1 h2, h.1.builds, h.1.apart⟩, fun p pro k hp => ?_⟩
  · by_contra hc
    obtain ⟨_, hx⟩ := hold p pt hpt (by simpa using hc)
    exact hc (h.1.fresh p pt hp hx)
  · obtain ⟨hne', hp'⟩ := hold p _ hp rfl
    have hw := h.2 p pro k hp'
    show Watch _ ev l p (fset s.target q t p)
    rw [fset_other _ _ hne']
    exact ⟨hw.lt, hw.wake, hw.check, hw.sched, hw.time, hw.nostop⟩

/-- Another process is resumed. -/
theorem watched_other (C : Cfg) {q : ℕ} {pt : Pt} {x : Except PyErr SVal} (h : Watched ev l s) (hq : q < s.next) (hp : s.points q = some pt) (he : pt.isEnv = false) :
    Watched ev l (s.resume C q x) := by
  rw [resume_eq C hp]
  obtain ⟨hg, hr⟩ := steady_code C (x := x) he s
  rcases hc : code C pt x s with ⟨s1, y | r⟩
  · rw [hc] at hg
    have hp1 : s1.points q = some pt := (hg.points q hq).trans hp
    have := watched_move (q := q) (o := Option.none) (t := s1.target q) (watched_gentle h hg) (hq.trans_le hg.next) (by simp) (by rw [hp1]; rintro _ ⟨⟩; exact he)
    have ht : fset s1.target q (s1.target q) = s1.target := by funext i; by_cases hi : i = q <;> simp [fset, hi]
    rw [ht] at this
    exact watched_gentle this gentle_trigger
  · rw [hc] at hg hr
    have hp1 : s1.points q = some pt := (hg.points q hq).trans hp
    cases r with
    | wait e' pt' =>
      exact watched_gentle (watched_move (q := q) (o := some pt') (t := e') (watched_gentle h hg) (hq.trans_le hg.next) (by rintro _ ⟨⟩; exact hr _ rfl) (by rw [hp1]; rintro _ ⟨⟩; exact he))
        (gentle_add (by simp) (by simp))
    | done v =>
      have := watched_move (q := q) (o := Option.none) (t := s1.target q) (watched_gentle h hg) (hq.trans_le hg.next) (by simp) (by rw [hp1]; rintro _ ⟨⟩; exact he)
      have ht : fset s1.target q (s1.target q) = s1.target := by funext i; by_cases hi : i = q <;> simp [fset, hi]
      rw [ht] at this
      exact watched_gentle this gentle_trigger

/-! ## The environment itself -/

/-- A new condition that the environment is going to wait for. -/
structure Fresh (s : Sim) (c : ℕ) : Prop where
  lt : c < s.next
  open' : (s.events c).callbacks ≠ Option.none
  check : (s.events c).value = Option.none → .check c ∈ s.cbs s.envActivate
  sched : (s.events c).value.isSome → ∃ en ∈ s.queue, en.ev = c
  time : ∀ en ∈ s.queue, en.ev = c → en.time = s.now
  nostop : .stop ∉ s.cbs c

/-- `pro | self.__environment_activate`. -/
theorem fresh_anyOf {a : ℕ} (hi : Inv s) (s' : Sim) (c : ℕ) (h : anyOf a s.envActivate s = (s', .ok c)) : Gentle s s' ∧ Fresh s' c := by
  have hc : s.next = c := by simp only [anyOf, Prod.mk.injEq, Except.ok.injEq] at h; exact h.2
  set s1 := s.alloc ⟨Option.none, false, some [.build s.next a s.envActivate]⟩ with hs1
  set check : Sim → ℕ → Sim := fun s ev => if s.processed ev then (if s.triggered c then s else s.trigger c (.ok .nothing)) else s.addCallback ev (.check c) with hcheck
  have hs' : check (check s1 a) s.envActivate = s' := by
    simp only [anyOf, Prod.mk.injEq] at h
    rw [← h.1, hcheck, ← hc]
  have hgc : ∀ u x, Gentle u (check u x) := fun u x => by
    rw [hcheck]; dsimp only
    split
    · split
      · exact gentle_refl u
      · exact gentle_trigger
    · exact gentle_add (by simp) (by simp)
  have hg1 : Gentle s s1 := gentle_alloc (by simp only [Option.getD_some, List.mem_singleton, Callback.build.injEq]; rintro _ _ _ ⟨h, _⟩; exact h)
  have hg2 := hgc s1 a
  have hg3 := hgc (check s1 a) s.envActivate
  rw [hs'] at hg3
  have hg13 := gentle_trans hg2 hg3
  have hlt1 : c < s1.next := by rw [← hc]; exact Nat.lt_succ_self _
  have he1 : s1.events c = ⟨Option.none, false, some [.build s.next a s.envActivate]⟩ := by rw [← hc]; exact events_alloc_new
  have hq1 : ∀ en ∈ s1.queue, en.ev ≠ c := fun en hen he => by
    have := hi.known en hen
    rw [he, ← hc] at this; exact lt_irrefl _ this
  refine ⟨gentle_trans hg1 hg13, hlt1.trans_le hg13.next, fun hn => ?_, fun hv => ?_, fun hv => ?_, fun en hen he => ?_, fun hs => ?_⟩
  · rw [hg13.done c hlt1, he1] at hn; cases hn
  · have henv : s'.envActivate = s.envActivate := hg13.env.trans hg1.env
    rw [henv]
    have hv2 : ((check s1 a).events c).value = Option.none := by
      by_contra hne
      obtain ⟨v, hne⟩ := Option.ne_none_iff_exists'.1 hne
      have := hg3.value c (hlt1.trans_le hg2.next) (by rw [hne]; rfl)
      rw [hv] at this; cases this
    by_cases hproc : (check s1 a).processed s.envActivate = true
    · have : s' = (check s1 a).trigger c (.ok .nothing) := by
        rw [← hs']
        show (if (check s1 a).processed s.envActivate then _ else _) = _
        rw [if_pos hproc, if_neg (by simp [Sim.triggered, hv2])]
      rw [this] at hv
      simp [Sim.trigger, Sim.schedule, fset] at hv
    · have : s' = (check s1 a).addCallback s.envActivate (.check c) := by
        rw [← hs']
        show (if (check s1 a).processed s.envActivate then _ else _) = _
        rw [if_neg hproc]
      rw [this]
      obtain ⟨lst, hl⟩ := Option.ne_none_iff_exists'.1 (fun hn => hproc (by simp [Sim.processed, hn]) : ((check s1 a).events s.envActivate).callbacks ≠ Option.none)
      simp [Sim.cbs, Sim.addCallback, fset, hl]
  · exact hg13.trig c hlt1 (by rw [he1]) hv
  · rw [hg13.now]
    exact (hg13.newq en hen (by rw [he]; exact hlt1)).resolve_left fun h1 => hq1 en h1 he
  · have := hg13.stops c hlt1 hs
    unfold Sim.cbs at this
    rw [he1] at this; simp at this

/-- What the code of the environment leaves behind. -/
structure EnvDone (s s' : Sim) (r : Except PyErr Res) : Prop where
  glob : Global s'
  next : s.next ≤ s'.next
  points : ∀ p < s.next, s'.points p = s.points p
  wait : ∀ c pt, r = .ok (.wait c pt) → pt.isEnv = true ∧ Fresh s' c

theorem done_envIter {e : EnvEvent} {k : Mach → Out Mach EnvEvent Unit} (hr : Run s) (h : Global s) (hok : OnGrid e.1) :
    EnvDone s (envIter e k s).1 (envIter e k s).2 := by
  have hrun := (run_process (s := s) (pt := .envProcNew e.ev) hr (fun _ _ => hok) rfl).1
  have hg := gentle_process (s := s) (pt := .envProcNew e.ev) rfl
  have hgl := global_gentle h hg
  rcases hp : process (.envProcNew e.ev) s with ⟨s1, y | pro⟩
  · simp [process] at hp
  rw [hp] at hrun hg hgl
  rcases ha : anyOf pro s1.envActivate s1 with ⟨s2, y | c⟩
  · simp [anyOf] at ha
  have heq : envIter e k s = (s2, .ok (.wait c (.envWait pro k))) := by
    show SimM.bind (process (.envProcNew e.ev)) (fun pro => SimM.bind (SimM.get Sim.envActivate) fun a => SimM.bind (anyOf pro a) fun c =>
      SimM.pure (Res.wait c (.envWait pro k))) s = _
    simp only [SimM.bind, hp, SimM.get, ha]
    rfl
  obtain ⟨hg2, hf⟩ := fresh_anyOf hrun.1 s2 c ha
  rw [heq]
  refine ⟨global_gentle hgl hg2, hg.next.trans hg2.next, fun p hp => (hg2.points p (hp.trans_le hg.next)).trans (hg.points p hp), fun c' pt he => ?_⟩
  simp only [Except.ok.injEq, Res.wait.injEq] at he
  obtain ⟨rfl, rfl⟩ := he
  exact ⟨rfl, hf⟩

theorem envDone_after {a b d : Sim} {r : Except PyErr Res} (h : EnvDone b d r) (hg : Gentle a b) : EnvDone a d r :=
  ⟨h.glob, hg.next.trans h.next, fun p hp => (h.points p (hp.trans_le hg.next)).trans (hg.points p hp), h.wait⟩

theorem envDone_error {y : PyErr} (h : Global s) (hg : Gentle s s') : EnvDone s s' (.error y) :=
  ⟨global_gentle h hg, hg.next, hg.points, by simp⟩

theorem gentle_w (w : Mach) : Gentle s { s with w := w } := gentle_set rfl rfl rfl rfl rfl rfl rfl (.inl rfl)

theorem done_envStart (C : Cfg) (hr : Run s) (h : Global s) : EnvDone s (envStart C s).1 (envStart C s).2 := by
  cases ha : s.envArgs with
  | none =>
    have : envStart C s = (s, .error .type) := by simp only [envStart, ha]
    rw [this]; exact envDone_error h (gentle_refl s)
  | some a =>
    have hy := gridY_env (fun env (w : Mach) => { w with env := some env }) envOf C.upper a.stimuli a.triggers a.times a.startTime s.w
    rcases ho : envProcess (fun env (w : Mach) => { w with env := some env }) envOf C.upper a.stimuli a.triggers a.times a.startTime s.w with ⟨w, e, k⟩ | ⟨w, r⟩ | ⟨w, x⟩
    · rw [ho] at hy
      have : envStart C s = envIter e k { s with w := w } := by simp only [envStart, ha, ho]
      rw [this]
      exact envDone_after (done_envIter (full_plain (plain_w w) hr).1 (global_gentle h (gentle_w w)) hy.1) (gentle_w w)
    · have : envStart C s = ({ s with w := w }, .error .runtime) := by simp only [envStart, ha, ho]
      rw [this]; exact envDone_error h (gentle_w w)
    · have : envStart C s = ({ s with w := w }, .error x) := by simp only [envStart, ha, ho]
      rw [this]; exact envDone_error h (gentle_w w)

/-- A new event takes the place of the one that was triggered. -/
theorem global_renew (hi : Inv s) (h : Global s) : Global ({ s.alloc ⟨Option.none, false, some []⟩ with envActivate := s.next } : Sim) := by
  have hg := global_gentle h (gentle_alloc (s := s) (E := ⟨Option.none, false, some []⟩) (by simp))
  refine ⟨Nat.lt_succ_self _, hg.fresh, fun en hen he => ?_, fun hv => ?_, fun hs => ?_, hg.one, hg.builds, Nat.ne_of_gt hi.proc.1⟩
  · have := hi.known en hen
    rw [show en.ev = s.next from he] at this; exact absurd this (lt_irrefl _)
  · change ((s.alloc _).events s.next).value.isSome = true at hv
    rw [events_alloc_new] at hv; cases hv
  · change _ ∈ (s.alloc _).cbs s.next at hs
    rw [cbs_alloc_new] at hs; simp at hs

/-- Lines 108-110 of simulation.py. -/
theorem envNext_eq (pro : ℕ) (s : Sim) : envNext pro s =
    if s.triggered s.envActivate then interruptProcess pro { s.alloc ⟨Option.none, false, some []⟩ with envActivate := s.next } else (s, .ok ()) := by
  show SimM.bind (SimM.get Sim.envActivate) (fun a => SimM.bind (SimM.get (·.triggered a)) fun pressed =>
    if pressed then SimM.bind newEvent fun a' => SimM.bind (SimM.set fun s => { s with envActivate := a' }) fun _ => interruptProcess pro else SimM.pure ()) s = _
  simp only [SimM.bind, SimM.get]
  by_cases ht : s.triggered s.envActivate = true
  · simp only [ht, if_true, SimM.bind, SimM.set, newEvent]
  · simp only [ht]
    rfl

theorem global_envNext {pro : ℕ} (hi : Inv s) (h : Global s) : Global (envNext pro s).1 ∧ s.next ≤ (envNext pro s).1.next ∧ ∀ p < s.next, (envNext pro s).1.points p = s.points p := by
  rw [envNext_eq]
  split
  · have hg := (steady_interrupt (q := pro) ({ s.alloc ⟨Option.none, false, some []⟩ with envActivate := s.next } : Sim)).1
    exact ⟨global_gentle (global_renew hi h) hg, (Nat.le_succ _).trans hg.next, fun p hp => hg.points p (Nat.lt_succ_of_lt hp)⟩
  · exact ⟨h, le_rfl, fun _ _ => rfl⟩

theorem done_envAdvance {k : Mach → Out Mach EnvEvent Unit} (hr : Run s) (h : Global s) (hk : ∀ w, (k w).Yields (fun e => OnGrid e.1)) :
    EnvDone s (envAdvance k s).1 (envAdvance k s).2 := by
  have hy := hk s.w
  rcases ho : k s.w with ⟨w, e, k'⟩ | ⟨w, r⟩ | ⟨w, x⟩
  · rw [ho] at hy
    have hr1 := (full_plain (plain_w w) hr).1
    have hgl := global_gentle h (gentle_w w)
    have hg := (steady_automaticAll (w.bufs.map Prod.fst) { s with w := w }).1
    have hr2 := (doing_automaticAll (w.bufs.map Prod.fst) hr1).1
    have : envAdvance k s = SimM.bind (automaticAll (w.bufs.map Prod.fst)) (fun _ => envIter e k') { s with w := w } := by simp only [envAdvance, ho]; rfl
    rw [this]
    unfold SimM.bind
    rcases hm : automaticAll (w.bufs.map Prod.fst) { s with w := w } with ⟨s2, y | u⟩
    · rw [hm] at hg
      exact envDone_error h (gentle_trans (gentle_w w) hg)
    · rw [hm] at hg hr2
      exact envDone_after (done_envIter hr2 (global_gentle hgl hg) hy.1) (gentle_trans (gentle_w w) hg)
  · have : envAdvance k s = ({ s with w := w }, .ok (.done .nothing)) := by simp only [envAdvance, ho]
    rw [this]
    exact ⟨global_gentle h (gentle_w w), le_rfl, fun _ _ => rfl, by simp⟩
  · have : envAdvance k s = ({ s with w := w }, .error x) := by simp only [envAdvance, ho]
    rw [this]; exact envDone_error h (gentle_w w)

theorem done_code (C : Cfg) {pt : Pt} {x : Except PyErr SVal} {ev : ℕ} (hr : Run s) (h : Global s) (hp : PtOk s ev pt) (he : pt.isEnv = true) :
    EnvDone s (code C pt x s).1 (code C pt x s).2 := by
  cases pt with
  | envNew =>
    rcases x with x | v
    · exact envDone_error h (gentle_refl s)
    · exact done_envStart C hr h
  | envWait pro k =>
    rcases x with x | v
    · exact envDone_error h (gentle_refl s)
    · obtain ⟨h1, h2, h3⟩ := global_envNext (pro := pro) hr.1 h
      have hr1 := (doing_envNext (pro := pro) hr).1
      show EnvDone s (SimM.bind (envNext pro) (fun _ => envAdvance k) s).1 (SimM.bind (envNext pro) (fun _ => envAdvance k) s).2
      unfold SimM.bind
      rcases hm : envNext pro s with ⟨s1, y | u⟩
      · rw [hm] at h1 h2 h3
        exact ⟨h1, h2, h3, by simp⟩
      · rw [hm] at h1 h2 h3 hr1
        have := done_envAdvance hr1 h1 hp
        exact ⟨this.glob, h2.trans this.next, fun p hp => (this.points p (hp.trans_le h2)).trans (h3 p hp), this.wait⟩
  | _ => cases he

/-- The environment is resumed. -/
theorem watched_env (C : Cfg) {pt : Pt} {x : Except PyErr SVal} (hr : Run s) (h : Global s) (hp : s.points p = some pt) (he : pt.isEnv = true) :
    Watched ev l (s.resume C p x) := by
  rw [resume_eq C hp]
  have hlt := points_lt hr.1 hp
  have hd := done_code C (x := x) hr h (hr.1.wait p pt hp) he
  rcases hc : code C pt x s with ⟨s1, r⟩
  rw [hc] at hd
  change EnvDone s s1 r at hd
  have hp1 : s1.points p = some pt := (hd.points p hlt).trans hp
  have hend : ∀ v, Watched ev l (s1.ends p v) := fun v => by
    refine watched_gentle (s := ({ s1 with points := fset s1.points p Option.none } : Sim)) ⟨⟨hd.glob.lt, fun q pt' hq hq' => ?_, hd.glob.time, hd.glob.sched, hd.glob.nostop, fun q q' pt1 pt2 hq hq' h1 h2 => ?_, hd.glob.builds, hd.glob.apart⟩, fun q pro k hq => ?_⟩ gentle_trigger
    · change fset s1.points p Option.none q = some pt' at hq'
      by_cases hqp : q = p
      · subst hqp; rw [fset_same] at hq'; cases hq'
      · rw [fset_other _ _ hqp] at hq'; exact hd.glob.fresh q pt' hq hq'
    · change fset s1.points p Option.none q = some pt1 at hq
      change fset s1.points p Option.none q' = some pt2 at hq'
      by_cases hqp : q = p
      · subst hqp; rw [fset_same] at hq; cases hq
      · rw [fset_other _ _ hqp] at hq
        exact absurd (hd.glob.one q p pt1 pt hq hp1 h1 he) hqp
    · change fset s1.points p Option.none q = _ at hq
      by_cases hqp : q = p
      · subst hqp; rw [fset_same] at hq; cases hq
      · rw [fset_other _ _ hqp] at hq
        exact absurd (hd.glob.one q p _ pt hq hp1 rfl he) hqp
  rcases r with y | r
  · exact hend _
  cases r with
  | done v => exact hend _
  | wait c pt' =>
    obtain ⟨he', hf⟩ := hd.wait c pt' rfl
    have honly : ∀ q pt1, fset s1.points p (some pt') q = some pt1 → pt1.isEnv = true → q = p := fun q pt1 hq h1 => by
      by_contra hqp
      rw [fset_other _ _ hqp] at hq
      exact hqp (hd.glob.one q p pt1 pt hq hp1 h1 he)
    have hglob : Global ({ s1 with points := fset s1.points p (some pt'), target := fset s1.target p c } : Sim) := by
      refine ⟨hd.glob.lt, fun q pt1 hq hq' => ?_, hd.glob.time, hd.glob.sched, hd.glob.nostop, fun q q' pt1 pt2 hq hq' h1 h2 => (honly q pt1 hq h1).trans (honly q' pt2 hq' h2).symm, hd.glob.builds, hd.glob.apart⟩
      change fset s1.points p (some pt') q = some pt1 at hq'
      by_cases hqp : q = p
      · subst hqp
        exact absurd (hlt.trans_le hd.next) (not_lt.2 hq)
      · rw [fset_other _ _ hqp] at hq'; exact hd.glob.fresh q pt1 hq hq'
    refine ⟨global_gentle hglob (gentle_add (by simp) (by simp)), fun q pro k hq => ?_⟩
    have hqp := honly q _ hq rfl
    subst hqp
    have htg : (s1.waits q c pt').target q = c := by show fset s1.target q c q = c; rw [fset_same]
    show Watch (s1.waits q c pt') ev l q ((s1.waits q c pt').target q)
    rw [htg]
    have hval : ((s1.waits q c pt').events c).value = (s1.events c).value := value_addCallback _ _ _ _
    have hold : ∀ x cb, cb ∈ s1.cbs x → cb ∈ (s1.waits q c pt').cbs x := fun x cb h =>
      mem_addCallback_old (s := ({ s1 with points := fset s1.points q (some pt'), target := fset s1.target q c } : Sim)) h
    refine ⟨hf.lt, .inl ?_, fun hv => .inl (hold _ _ (hf.check (by rw [← hval]; exact hv))), fun hv => .inl (hf.sched (by rw [← hval]; exact hv)), hf.time, fun hs => ?_⟩
    · obtain ⟨lst, hl⟩ := Option.ne_none_iff_exists'.1 hf.open'
      simp [Sim.cbs, Sim.waits, Sim.addCallback, fset, hl]
    · rcases mem_addCallback hs with h1 | ⟨h1, _⟩
      · exact hf.nostop h1
      · cases h1

/-! ## Callbacks -/

/-- Taking callbacks off an event, but none that the environment needs. -/
theorem watched_drop {x : ℕ} {cb : Callback} (h : Watched ev l s) (h1 : ∀ p pro k, s.points p = some (.envWait pro k) → cb ≠ .resume p)
    (h2 : ∀ p pro k, s.points p = some (.envWait pro k) → (s.events (s.target p)).value = Option.none → cb ≠ .check (s.target p)) : Watched ev l (s.dropCallback x cb) := by
  have hsub : ∀ y, ((s.dropCallback x cb).cbs y).Sublist (s.cbs y) := fun y => by
    by_cases he : y = x
    · subst he; rw [cbs_drop]; exact List.erase_sublist
    · have : (s.dropCallback x cb).cbs y = s.cbs y := by simp [Sim.cbs, Sim.dropCallback, fset, he]
      rw [this]
  have hkeep : ∀ y d, d ≠ cb → d ∈ s.cbs y → d ∈ (s.dropCallback x cb).cbs y := fun y d hd hm => by
    by_cases he : y = x
    · subst he; rw [cbs_drop]; exact (List.mem_erase_of_ne hd).2 hm
    · have : (s.dropCallback x cb).cbs y = s.cbs y := by simp [Sim.cbs, Sim.dropCallback, fset, he]
      rw [this]; exact hm
  have hval : ∀ y, ((s.dropCallback x cb).events y).value = (s.events y).value := fun y => by
    by_cases he : y = x
    · subst he; simp [Sim.dropCallback, fset]
    · simp [Sim.dropCallback, fset, he]
  have hnone : ∀ y, (s.events y).callbacks = Option.none → ((s.dropCallback x cb).events y).callbacks = Option.none := fun y hy => by
    by_cases he : y = x
    · subst he; simp [Sim.dropCallback, fset, hy]
    · simp [Sim.dropCallback, fset, he, hy]
  refine ⟨⟨h.1.lt, h.1.fresh, h.1.time, fun hv => ?_, fun hs => h.1.nostop ((hsub _).subset hs), h.1.one, fun y c a b hb => h.1.builds y c a b ((hsub y).subset hb), h.1.apart⟩, fun p pro k hp => ?_⟩
  · exact (h.1.sched (by rw [← hval]; exact hv)).imp_right (hnone _)
  · have hw := h.2 p pro k hp
    exact ⟨hw.lt, hw.wake.imp_left (hkeep _ _ (h1 p pro k hp).symm), fun hv => (hw.check (by rw [← hval]; exact hv)).imp_left
      (hkeep _ _ (h2 p pro k hp (by rw [← hval]; exact hv)).symm), fun hv => hw.sched (by rw [← hval]; exact hv), hw.time, fun hs => hw.nostop ((hsub _).subset hs)⟩

theorem watched_tail {cb : Callback} (h : Watched ev (cb :: l) s) (h1 : ∀ p pro k, s.points p = some (.envWait pro k) → cb ≠ .resume p)
    (h2 : ∀ p pro k, s.points p = some (.envWait pro k) → cb ≠ .check (s.target p)) : Watched ev l s :=
  ⟨h.1, fun p pro k hp => watch_tail (h.2 p pro k hp) (fun _ => h1 p pro k hp) (fun _ => h2 p pro k hp)⟩

theorem watched_callback (C : Cfg) {v : Except PyErr SVal} {cb : Callback} (hg : Good C.ruleFiring s) (hv : (s.events ev).value.isSome) (hb : ∀ c a b, cb = .build c a b → c = ev)
    (h : Watched ev (cb :: l) s) : Watched ev l (callback C ev v s cb) := by
  have hi := hg.1.1
  cases cb with
  | resume q =>
    simp only [callback]
    have key : ∀ s1 x, Gentle s s1 → Run s1 → (s1.points q = s.points q) → Watched ev l (s1.resume C q x) := by
      intro s1 x hgt hr1 hq1
      have hw := watched_gentle h hgt
      have hcheck : ∀ p pro k, s1.points p = some (.envWait pro k) → (Callback.resume q : Callback) ≠ .check (s1.target p) := by simp
      cases hp : s1.points q with
      | none =>
        have : s1.resume C q x = s1 := by unfold Sim.resume; rw [hp]
        rw [this]
        exact watched_tail hw (fun p pro k hpp he => by cases he; rw [hp] at hpp; cases hpp) hcheck
      | some pt =>
        cases he : pt.isEnv with
        | true => exact watched_env C hr1 hw.1 hp he
        | false =>
          refine watched_other C (watched_tail hw (fun p pro k hpp hc => ?_) hcheck) (points_lt hr1.1 hp) hp he
          cases hc; rw [hp] at hpp; cases hpp; cases he
    rcases v with x | v
    · exact key _ _ gentle_defuse (good_defuse hg).1 rfl
    · exact key s _ (gentle_refl s) hg.1 rfl
  | interrupt q =>
    simp only [callback]
    have ht : Watched ev l s := watched_tail h (by simp) (by simp)
    split
    · exact ht
    · have hr1 := (good_drop (ev := s.target q) (cb := .resume q) (by simp) hg).1
      cases hp : s.points q with
      | none =>
        have : (s.dropCallback (s.target q) (.resume q)).resume C q v = s.dropCallback (s.target q) (.resume q) := by
          unfold Sim.resume
          have : (s.dropCallback (s.target q) (.resume q)).points q = Option.none := hp
          rw [this]
        rw [this]
        exact watched_drop ht (fun p pro k hpp he => by cases he; rw [hp] at hpp; cases hpp) (by simp)
      | some pt =>
        have hp1 : (s.dropCallback (s.target q) (.resume q)).points q = some pt := hp
        cases he : pt.isEnv with
        | true =>
          have hgl : Global (s.dropCallback (s.target q) (.resume q)) := by
            have h0 : Global ({ s with points := fset s.points q Option.none } : Sim) := by
              refine ⟨h.1.lt, fun p pt' hp' hpt => ?_, h.1.time, h.1.sched, h.1.nostop, fun p p' pt1 pt2 hp1 hp2 h1 h2 => ?_, h.1.builds, h.1.apart⟩
              · change fset s.points q Option.none p = _ at hpt
                by_cases hpq : p = q
                · subst hpq; rw [fset_same] at hpt; cases hpt
                · rw [fset_other _ _ hpq] at hpt; exact h.1.fresh p pt' hp' hpt
              · change fset s.points q Option.none p = _ at hp1
                by_cases hpq : p = q
                · subst hpq; rw [fset_same] at hp1; cases hp1
                · rw [fset_other _ _ hpq] at hp1
                  exact absurd (h.1.one p q pt1 pt hp1 hp h1 he) hpq
            have hd := watched_drop (s := ({ s with points := fset s.points q Option.none } : Sim)) (ev := ev) (l := l) (x := s.target q) (cb := .resume q) ⟨h0, fun p pro k hpp => by
              change fset s.points q Option.none p = _ at hpp
              by_cases hpq : p = q
              · subst hpq; rw [fset_same] at hpp; cases hpp
              · rw [fset_other _ _ hpq] at hpp
                exact absurd (h.1.one p q _ pt hpp hp rfl he) hpq⟩
              (fun p pro k hpp hc => by
                cases hc
                change fset s.points q Option.none q = _ at hpp
                rw [fset_same] at hpp; cases hpp) (by simp)
            exact ⟨hd.1.lt, h.1.fresh, hd.1.time, hd.1.sched, hd.1.nostop, h.1.one, hd.1.builds, hd.1.apart⟩
          exact watched_env C hr1 hgl hp1 he
        | false =>
          refine watched_other C (watched_drop ht (fun p pro k hpp hc => ?_) (by simp)) (show q < s.next from points_lt hi hp) hp1 he
          cases hc; rw [hp] at hpp; cases hpp; cases he
  | check d =>
    simp only [callback]
    have key : ∀ s1, Watched ev (.check d :: l) s1 → (s1.events d).value.isSome → Watched ev l s1 := by
      intro s1 hw hd
      refine ⟨hw.1, fun p pro k hp => ?_⟩
      have h1 := hw.2 p pro k hp
      refine ⟨h1.lt, h1.wake.imp_right ?_, fun hn => (h1.check hn).imp_right ?_, fun hs => (h1.sched hs).imp_right ?_, h1.time, h1.nostop⟩
      · rintro ⟨he, hm⟩; exact ⟨he, (List.mem_cons.1 hm).resolve_left (by simp)⟩
      · rintro ⟨he, hm⟩
        refine ⟨he, (List.mem_cons.1 hm).resolve_left fun hc => ?_⟩
        cases hc; rw [hn] at hd; cases hd
      · rintro ⟨he, hm⟩; exact ⟨he, (List.mem_cons.1 hm).resolve_left (by simp)⟩
    have htr : ∀ (s1 : Sim) u, ((s1.trigger d u).events d).value.isSome := fun s1 u => by simp [Sim.trigger, Sim.schedule, fset]
    split
    · rename_i ht; exact key s h ht
    · rcases v with x | v
      · exact key _ (watched_gentle (watched_gentle h gentle_defuse) gentle_trigger) (htr _ _)
      · exact key _ (watched_gentle h gentle_trigger) (htr _ _)
  | build d a b =>
    simp only [callback]
    have hd := hb d a b rfl
    subst hd
    have ht : Watched d l s := watched_tail h (by simp) (by simp)
    have hc : ∀ s1 : Sim, (s1.events d).value.isSome → ∀ p pro k, s1.points p = some (.envWait pro k) → (s1.events (s1.target p)).value = Option.none →
        (Callback.check d : Callback) ≠ .check (s1.target p) := by
      intro s1 hv1 p pro k _ hn he
      cases he; rw [hn] at hv1; cases hv1
    refine watched_drop (watched_drop ht (by simp) (hc s hv)) (by simp) (hc _ ?_)
    by_cases hda : d = a
    · subst hda; simpa [Sim.dropCallback, fset] using hv
    · simpa [Sim.dropCallback, fset, hda] using hv
  | stop => exact watched_tail h (by simp) (by simp)

theorem watched_callbacks (C : Cfg) {v : Except PyErr SVal} : ∀ (l : List Callback) {s : Sim}, Good C.ruleFiring s → Pending ev v l s → (s.events ev).value.isSome →
    (∀ c a b, .build c a b ∈ l → c = ev) → Watched ev l s → Watched ev [] (l.foldl (callback C ev v) s)
  | [], _, _, _, _, _, h => h
  | cb :: l, s, hg, hp, hv, hb, h => by
    obtain ⟨a, b, q, ho, _⟩ := good_callback C hg hp
    obtain ⟨u, hu⟩ := Option.isSome_iff_exists.1 hv
    exact watched_callbacks C l a b (by rw [ho.value ev u hu]; rfl) (fun c a b hm => hb c a b (.tail _ hm)) (watched_callback C hg hv (fun c a b he => hb c a b (by rw [he]; exact .head _)) h)

/-! ## Steps -/

theorem watched_taken {en : Entry} {q : List Entry} (hi : Inv s) (hq : s.queue = en :: q) (h : Watched ev [] s) :
    Watched en.ev (s.cbs en.ev) (s.taken en q) := by
  have hhead : en ∈ s.queue := by rw [hq]; exact .head _
  have hsorted := hi.sorted
  rw [hq] at hsorted
  have hle : ∀ x ∈ q, en.time ≤ x.time := fun x hx => upTo_le ((List.pairwise_cons.1 hsorted).1 x hx)
  have hnow : ∀ x ∈ q, x.time = s.now → x.time = en.time := fun x hx ht => le_antisymm (by rw [ht]; exact hi.ahead en hhead) (hle x hx)
  have hsub : ∀ x ∈ q, x ∈ s.queue := fun x hx => by rw [hq]; exact .tail _ hx
  have hother : ∀ x, x ≠ en.ev → (s.taken en q).events x = s.events x := fun x hx => by simp [Sim.taken, fset, hx]
  have hval : ∀ x, ((s.taken en q).events x).value = (s.events x).value := fun x => (thin_taken s en q).value x
  have hcbs : ∀ x, x ≠ en.ev → (s.taken en q).cbs x = s.cbs x := fun x hx => by unfold Sim.cbs; rw [hother x hx]
  have hsame : ((s.taken en q).events en.ev).callbacks = Option.none := by simp [Sim.taken, fset]
  have hless : ∀ x, ((s.taken en q).cbs x).Sublist (s.cbs x) := (thin_taken s en q).sub
  refine ⟨⟨h.1.lt, h.1.fresh, fun x hx he => hnow x hx (h.1.time x (hsub x hx) he), fun hv => ?_, fun hm => h.1.nostop ((hless _).subset hm), h.1.one, fun x c a b hb => h.1.builds x c a b ((hless x).subset hb), h.1.apart⟩, fun p pro k hp => ?_⟩
  · show (∃ x ∈ q, x.ev = s.envActivate) ∨ ((s.taken en q).events s.envActivate).callbacks = Option.none
    by_cases hev : s.envActivate = en.ev
    · rw [hev]; exact .inr hsame
    · rw [hother _ hev]
      refine (h.1.sched (by rw [← hval]; exact hv)).imp_left ?_
      rintro ⟨x, hx, he⟩
      rw [hq] at hx
      rcases List.mem_cons.1 hx with rfl | hx
      · exact absurd he.symm hev
      · exact ⟨x, hx, he⟩
  · have hw := h.2 p pro k hp
    have hwake : .resume p ∈ s.cbs (s.target p) := hw.wake.resolve_right (by simp)
    show Watch (s.taken en q) en.ev (s.cbs en.ev) p (s.target p)
    refine ⟨hw.lt, ?_, fun hn => ?_, fun hv => ?_, fun x hx he => hnow x hx (hw.time x (hsub x hx) he), fun hm => hw.nostop ((hless _).subset hm)⟩
    · by_cases hev : s.target p = en.ev
      · exact .inr ⟨hev.symm, by rw [← hev]; exact hwake⟩
      · rw [hcbs _ hev]; exact .inl hwake
    · have hm := (hw.check (by rw [← hval]; exact hn)).resolve_right (by simp)
      show .check (s.target p) ∈ (s.taken en q).cbs s.envActivate ∨ _
      by_cases hev : s.envActivate = en.ev
      · exact .inr ⟨hev.symm, by rw [← hev]; exact hm⟩
      · rw [hcbs _ hev]; exact .inl hm
    · by_cases hev : s.target p = en.ev
      · exact .inr ⟨hev.symm, by rw [← hev]; exact hwake⟩
      · obtain ⟨x, hx, he⟩ := (hw.sched (by rw [← hval]; exact hv)).resolve_right (by simp)
        rw [hq] at hx
        rcases List.mem_cons.1 hx with rfl | hx
        · exact absurd he.symm hev
        · exact .inl ⟨x, hx, he⟩

/-- The name of the event whose callbacks have all been called does not matter. -/
theorem watched_nil (h : Watched ev [] s) (ev' : ℕ) : Watched ev' [] s :=
  ⟨h.1, fun p pro k hp => let hw := h.2 p pro k hp
    ⟨hw.lt, .inl (hw.wake.resolve_right (by simp)), fun hn => .inl ((hw.check hn).resolve_right (by simp)), fun hv => .inl ((hw.sched hv).resolve_right (by simp)), hw.time, hw.nostop⟩⟩

theorem watched_called (C : Cfg) {en : Entry} {q : List Entry} (hf : Fine C.ruleFiring s) (hq : s.queue = en :: q) (hs : .stop ∉ s.cbs en.ev) (h : Watched ev [] s) :
    Watched ev [] (s.called C en q) := by
  have hhead : en ∈ s.queue := by rw [hq]; exact .head _
  have ht := watched_taken hf.1 hq h
  have hft := fine_taken hf hq
  unfold Sim.called
  rcases hf.1.grid en hhead with hg | hg
  · exact watched_nil (watched_callbacks C (s.cbs en.ev) ⟨⟨hft.1, hg⟩, hft.2⟩ (pending_taken hf.1 hq) (by rw [(thin_taken s en q).value]; exact hf.1.queued en hhead)
      (fun c a b hb => h.1.builds en.ev c a b hb) ht) ev
  · have : s.cbs en.ev = [] := by
      have := hg.resolve_left hs
      simp [Sim.cbs, this]
    rw [this] at ht ⊢; exact watched_nil ht ev

/-- An event that stops `run` is taken. -/
theorem watched_stopped {en : Entry} {q : List Entry} (hi : Inv s) (hq : s.queue = en :: q) (hs : .stop ∈ s.cbs en.ev) (h : Watched ev [] s) : Watched ev [] (s.taken en q) := by
  have ht := watched_taken hi hq h
  refine ⟨ht.1, fun p pro k hp => ?_⟩
  have hw := ht.2 p pro k hp
  have h1 : en.ev ≠ s.target p := fun he => (h.2 p pro k hp).nostop (he ▸ hs)
  have h2 : en.ev ≠ s.envActivate := fun he => h.1.nostop (he ▸ hs)
  exact ⟨hw.lt, .inl (hw.wake.resolve_right fun hc => h1 hc.1), fun hn => .inl ((hw.check hn).resolve_right fun hc => h2 hc.1),
    fun hv => .inl ((hw.sched hv).resolve_right fun hc => h1 hc.1), hw.time, hw.nostop⟩

theorem watched_step {C : Cfg} (hf : Fine C.ruleFiring s) (h : Watched ev [] s) :
    (∀ s', s.step C = .ok s' → Watched ev [] s') ∧ (∀ s', s.step C = .stopped s' → Watched ev [] s') ∧ (∀ s' x, s.step C = .raised s' x → Watched ev [] s') := by
  have key : ∀ r, s.step C = r → match r with | .ok s' => Watched ev [] s' | .stopped s' => Watched ev [] s' | .raised s' _ => Watched ev [] s' | .empty => True := by
    intro r hr
    rcases step_cases hr with ⟨rfl, _⟩ | ⟨en, q, hq, ⟨hs, rfl⟩ | ⟨hs, rfl | ⟨x, rfl⟩⟩⟩
    · trivial
    · exact watched_stopped hf.1 hq hs h
    · exact watched_called C hf hq hs h
    · exact watched_called C hf hq hs h
  exact ⟨fun s' hs => key _ hs, fun s' hs => key _ hs, fun s' x hs => key _ hs⟩

/-! ## All states -/

theorem steady_initExtra : ∀ l : List String, Steady (initExtra l) (fun _ => True)
  | [] => steady_pure trivial
  | n :: r => by
    unfold initExtra
    split
    · exact steady_initExtra r
    · refine steady_bind (steady_process rfl) fun p _ => steady_bind steady_newEvent fun a _ => steady_bind (Q := fun _ => True) (fun s => ⟨gentle_set rfl rfl rfl rfl rfl rfl rfl (.inl rfl), fun _ _ => trivial⟩) fun _ _ => steady_initExtra r

theorem global_blank (w : Mach) (args : Option EnvArgs) (t : ℚ) : Global (Sim.blank w args t) ∧ ∀ p, (Sim.blank w args t).points p = Option.none := by
  have hcb : ∀ x, (Sim.blank w args t).cbs x = [] := fun x => by
    simp only [Sim.cbs, Sim.blank]
    split <;> rfl
  exact ⟨⟨by simp [Sim.blank], by simp [Sim.blank], by simp [Sim.blank], by simp [Sim.blank], by rw [hcb]; simp, by simp [Sim.blank], by simp [hcb], by simp [Sim.blank]⟩, fun _ => rfl⟩

/-- There is no environment yet. -/
def NoEnv (s : Sim) : Prop := ∀ p pt, s.points p = some pt → pt.isEnv = false

theorem noEnv_gentle (h : NoEnv s) (hg : Gentle s s') : NoEnv s' := fun p pt hp => by
  by_cases hlt : p < s.next
  · rw [hg.points p hlt] at hp; exact h p pt hp
  · rcases hg.newpts p pt (not_lt.1 hlt) hp with h1 | h1
    · exact h p pt h1
    · exact h1

theorem watched_noEnv (h : Global s) (hn : NoEnv s) : Watched ev l s := ⟨h, fun p pro k hp => by cases hn p _ hp⟩

/-- The process of the environment is created. -/
theorem watched_newEnv (h : Global s) (hn : NoEnv s) : Watched ev l (process .envNew s).1 := by
  have hg := global_gentle h (gentle_process (s := s) (pt := .procNew) rfl)
  have hpts : ∀ p, (process .envNew s).1.points p = fset s.points s.next (some .envNew) p := fun p => rfl
  have hold : ∀ p pt, (process .envNew s).1.points p = some pt → pt.isEnv = true → p = s.next := fun p pt hp he => by
    rw [hpts] at hp
    by_contra hne
    rw [fset_other _ _ hne] at hp
    rw [hn p pt hp] at he; cases he
  refine ⟨⟨hg.lt, fun p pt hp hpt => ?_, hg.time, hg.sched, hg.nostop, fun p q pt pt' hp hq h1 h2 => (hold p pt hp h1).trans (hold q pt' hq h2).symm, hg.builds, hg.apart⟩, fun p pro k hp => ?_⟩
  · rw [hpts, fset_other _ _ (by rintro rfl; change s.next + 1 + 1 ≤ s.next at hp; omega)] at hpt
    exact hn p pt hpt
  · have := hold p _ hp rfl
    subst this
    rw [hpts, fset_same] at hp; cases hp

theorem watched_init (w : Mach) (args : Option EnvArgs) (t : ℚ) : Watched 0 [] (Sim.init w args t) := by
  obtain ⟨hb, hp⟩ := global_blank w args t
  have hn : NoEnv (Sim.blank w args t) := fun p pt h => by rw [hp] at h; cases h
  have hg1 := (steady_process (pt := .procNew) rfl (Sim.blank w args t)).1
  have hg2 := (steady_initExtra (w.bufs.map Prod.fst) (process .procNew (Sim.blank w args t)).1).1
  have hgl := global_gentle (global_gentle hb hg1) hg2
  have hno := noEnv_gentle (noEnv_gentle hn hg1) hg2
  show Watched 0 [] (SimM.bind (process .procNew) (fun _ => SimM.bind (initExtra (w.bufs.map Prod.fst)) fun _ =>
    if w.env.isSome then SimM.bind (process .envNew) fun _ => SimM.pure () else SimM.pure ()) (Sim.blank w args t)).1
  have hfirst : process .procNew (Sim.blank w args t) = ((process .procNew (Sim.blank w args t)).1, .ok 2) := rfl
  unfold SimM.bind
  rw [hfirst]
  dsimp only
  rcases hx : initExtra (w.bufs.map Prod.fst) (process .procNew (Sim.blank w args t)).1 with ⟨s2, y | u⟩
  · rw [hx] at hgl hno
    exact watched_noEnv hgl hno
  · rw [hx] at hgl hno
    have key : ∀ b : Bool, Watched 0 [] ((if b = true then SimM.bind (process .envNew) fun _ => SimM.pure () else SimM.pure () : SimM Unit) s2).1 := fun b => by
      cases b
      · exact watched_noEnv hgl hno
      · exact watched_newEnv hgl hno
    exact key _

theorem watched_setStop {q : ℚ} (h : Watched ev [] s) : Watched ev [] (s.setStop q).1 := by
  unfold Sim.setStop
  split
  · exact h
  · exact watched_gentle h (gentle_schedule (gentle_alloc (by simp)) fun hl => absurd hl (lt_irrefl _))

theorem watched_compile {C : Cfg} (h : Watched ev [] s) : Watched ev [] (compileAtEnd C s).1 := by
  unfold compileAtEnd
  split
  · split <;> exact watched_gentle h (gentle_w _)
  · exact h

theorem watched_reachable {C : Cfg} {w : Mach} {args : Option EnvArgs} {t : ℚ} (h : Reachable C w args t s) : Watched 0 [] s := by
  induction h with
  | init => exact watched_init w args t
  | @stop _ _ q _ _ hs ih => have := watched_setStop (q := q) ih; rw [hs] at this; exact this
  | step h hs ih => exact (watched_step (fine_reachable h) ih).1 _ hs
  | stopped h hs ih => exact (watched_step (fine_reachable h) ih).2.1 _ hs
  | raised h hs ih => exact (watched_step (fine_reachable h) ih).2.2 _ _ hs
  | compile h hs ih => have := watched_compile (C := C) ih; rw [hs] at this; exact this

end Verif
