import Verif.Lemmas.Awake
import Verif.Lemmas.SimRun
import Verif.Spec.Errors
/-! # Exceptions are never lost -/
namespace Verif
open Verif.Spec

variable {s s' : Sim} {p : ℕ} {A B : Type} {x : PyErr}

/-! ## Code -/

/-- What code does to events: it triggers none with an exception other than those of interruptions, and new ones are open. -/
structure Candid (s s' : Sim) : Prop where
  now : s'.now = s.now
  next : s.next ≤ s'.next
  points : ∀ p < s.next, s'.points p = s.points p
  opened : ∀ ev < s.next, (s'.events ev).callbacks.isSome = (s.events ev).callbacks.isSome
  defused : ∀ ev < s.next, (s'.events ev).defused = (s.events ev).defused
  value : ∀ ev < s.next, ∀ v, (s.events ev).value = some v → (s'.events ev).value = some v
  err : ∀ ev x, x ≠ .interrupt → (s'.events ev).value = some (.error x) → (s.events ev).value = some (.error x)
  new : ∀ ev, s.next ≤ ev → ev < s'.next → (s'.events ev).callbacks.isSome ∧ ((s'.events ev).defused = true → (s'.events ev).value = some (.error .interrupt))
  newq : ∀ en ∈ s'.queue, en ∈ s.queue ∨ en.time = s.now ∨ (∀ x, x ≠ .interrupt → (s'.events en.ev).value ≠ some (.error x)) ∧ s.next ≤ en.ev

theorem candid_refl (s : Sim) : Candid s s :=
  ⟨rfl, le_rfl, fun _ _ => rfl, fun _ _ => rfl, fun _ _ => rfl, fun _ _ _ h => h, fun _ _ _ h => h, fun _ h h' => absurd h' (not_lt.2 h), fun _ h => .inl h⟩

theorem candid_trans {a b c : Sim} (h1 : Candid a b) (h2 : Candid b c) : Candid a c := by
  have hlt : ∀ {x}, x < a.next → x < b.next := fun h => h.trans_le h1.next
  refine ⟨h2.now.trans h1.now, h1.next.trans h2.next, fun p hp => (h2.points p (hlt hp)).trans (h1.points p hp), fun ev hev => (h2.opened ev (hlt hev)).trans (h1.opened ev hev),
    fun ev hev => (h2.defused ev (hlt hev)).trans (h1.defused ev hev), fun ev hev v hv => h2.value ev (hlt hev) v (h1.value ev hev v hv),
    fun ev x hx hv => h1.err ev x hx (h2.err ev x hx hv), fun ev h h' => ?_, fun en hen => ?_⟩
  · by_cases hb : ev < b.next
    · obtain ⟨h3, h4⟩ := h1.new ev h hb
      refine ⟨by rw [h2.opened ev hb]; exact h3, fun hd => h2.value ev hb _ (h4 ?_)⟩
      rw [← h2.defused ev hb]; exact hd
    · exact h2.new ev (not_lt.1 hb) h'
  · rcases h2.newq en hen with h | h | ⟨h, h'⟩
    · rcases h1.newq en h with h | h | ⟨h, h'⟩
      · exact .inl h
      · exact .inr (.inl h)
      · exact .inr (.inr ⟨fun x hx hv => h x hx (h2.err _ x hx hv), h'⟩)
    · exact .inr (.inl (h.trans h1.now))
    · exact .inr (.inr ⟨h, h1.next.trans h'⟩)

/-- A piece of code of this kind. -/
def Candidly (m : SimM A) : Prop := ∀ s, Candid s (m s).1

theorem candidly_bind {m : SimM A} {f : A → SimM B} (hm : Candidly m) (hf : ∀ a, Candidly (f a)) : Candidly (m >>= f) := by
  intro s
  show Candid s (SimM.bind m f s).1
  unfold SimM.bind
  have h1 := hm s
  rcases h : m s with ⟨s1, e | a⟩
  · rw [h] at h1; exact h1
  · rw [h] at h1; exact candid_trans h1 (hf a s1)

theorem candidly_pure {a : A} : Candidly (pure a : SimM A) := fun s => candid_refl s
theorem candidly_throw {e : PyErr} : Candidly (SimM.throw e : SimM A) := fun s => candid_refl s
theorem candidly_get {f : Sim → A} : Candidly (SimM.get f) := fun s => candid_refl s

/-- Assignments to other attributes. -/
theorem candid_set (hn : s'.now = s.now) (hx : s'.next = s.next) (hp : s'.points = s.points) (he : s'.events = s.events) (hq : s'.queue = s.queue) : Candid s s' :=
  ⟨hn, hx.ge, fun _ _ => by rw [hp], fun _ _ => by rw [he], fun _ _ => by rw [he], fun _ _ _ h => by rw [he]; exact h, fun _ _ _ h => by rw [he] at h; exact h,
    fun _ h h' => absurd (hx ▸ h') (not_lt.2 h), fun _ h => .inl (hq ▸ h)⟩

/-- Proves that assignments are of this kind. -/
macro "candid" : tactic => `(tactic| exact fun s => candid_set rfl rfl rfl rfl rfl)

/-- A new event, perhaps scheduled. -/
theorem candid_alloc {E : SEv} (hE : E.callbacks.isSome) (hd : E.defused = true → E.value = some (.error .interrupt)) (hv : ∀ x, x ≠ .interrupt → E.value ≠ some (.error x)) : Candid s (s.alloc E) := by
  refine ⟨rfl, Nat.le_succ _, fun _ _ => rfl, fun ev hev => by rw [events_alloc_old (Nat.ne_of_lt hev)], fun ev hev => by rw [events_alloc_old (Nat.ne_of_lt hev)],
    fun ev hev v hv => by rw [events_alloc_old (Nat.ne_of_lt hev)]; exact hv, fun ev x hx h => ?_, fun ev h h' => ?_, fun _ h => .inl h⟩
  · by_cases he : ev = s.next
    · subst he; rw [events_alloc_new] at h; exact absurd h (hv x hx)
    · rw [events_alloc_old he] at h; exact h
  · have : ev = s.next := by have : ev < s.next + 1 := h'; omega
    subst this
    rw [events_alloc_new]; exact ⟨hE, hd⟩

theorem candid_schedule {s0 : Sim} {ev : ℕ} {u : Bool} {d : ℚ} (h : Candid s0 s) (hd : d = 0 ∨ (∀ x, x ≠ .interrupt → (s.events ev).value ≠ some (.error x)) ∧ s0.next ≤ ev) : Candid s0 (s.schedule ev u d) := by
  refine ⟨h.now, h.next, h.points, h.opened, h.defused, h.value, h.err, h.new, fun en hen => ?_⟩
  rcases (mem_insertEntry _ _ _).1 hen with rfl | hen
  · rcases hd with rfl | hd
    · right; left
      show s.now + 0 = _
      rw [add_zero]; exact h.now
    · exact .inr (.inr hd)
  · exact h.newq en hen

theorem candid_trigger {ev : ℕ} {v : SVal} (hv : (s.events ev).value = Option.none) : Candid s (s.trigger ev (.ok v)) := by
  refine candid_schedule (s := s.valued ev (.ok v)) ?_ (.inl rfl)
  have ho : ∀ y, y ≠ ev → (s.valued ev (.ok v)).events y = s.events y := fun y hy => fset_other _ _ hy
  have hs : (s.valued ev (.ok v)).events ev = { s.events ev with value := some (.ok v) } := fset_same _ _ _
  refine ⟨rfl, le_rfl, fun _ _ => rfl, fun y _ => ?_, fun y _ => ?_, fun y _ u hu => ?_, fun y x hx hu => ?_, fun _ h h' => absurd h' (not_lt.2 h), fun _ h => .inl h⟩
  · by_cases he : y = ev
    · subst he; rw [hs]
    · rw [ho y he]
  · by_cases he : y = ev
    · subst he; rw [hs]
    · rw [ho y he]
  · by_cases he : y = ev
    · subst he; rw [hv] at hu; cases hu
    · rw [ho y he]; exact hu
  · by_cases he : y = ev
    · subst he; rw [hs] at hu; cases hu
    · rw [ho y he] at hu; exact hu

theorem candidly_newEvent : Candidly newEvent := fun s => candid_alloc rfl (by simp) (by simp)

theorem untriggered {ev : ℕ} (h : ¬ s.triggered ev = true) : (s.events ev).value = Option.none := by
  unfold Sim.triggered at h
  cases hv : (s.events ev).value with
  | none => rfl
  | some v => rw [hv] at h; exact absurd rfl h

theorem candidly_succeed {ev : ℕ} : Candidly (succeed ev) := fun s => by
  unfold succeed
  split
  · exact candid_refl s
  · exact candid_trigger (untriggered ‹_›)

theorem candidly_timeout {d : ℚ} : Candidly (timeout d) := fun s => by
  unfold timeout
  split
  · exact candid_refl s
  · exact candid_schedule (candid_alloc rfl (by simp) (by simp)) (.inr ⟨fun x _ => by rw [events_alloc_new]; simp, le_rfl⟩)

theorem candidly_interrupt {q : ℕ} : Candidly (interruptProcess q) := fun s => by
  unfold interruptProcess
  split
  · exact candid_refl s
  · exact candid_schedule (candid_alloc rfl (fun _ => rfl) fun x hx h => hx (by simpa using h.symm)) (.inl rfl)

theorem candidly_process {pt : Pt} : Candidly (process pt) := fun s => by
  have h1 : Candid s (s.alloc ⟨Option.none, false, some []⟩) := candid_alloc rfl (by simp) (by simp)
  have h2 : Candid (s.alloc ⟨Option.none, false, some []⟩) ((s.alloc ⟨Option.none, false, some []⟩).alloc ⟨some (.ok .nothing), false, some [.resume s.next]⟩) := candid_alloc rfl (by simp) (by simp)
  have h3 := candid_schedule (ev := (s.alloc ⟨Option.none, false, some []⟩).next) (u := true) (candid_trans h1 h2) (.inl rfl)
  refine ⟨h3.now, h3.next, fun p hp => ?_, h3.opened, h3.defused, h3.value, h3.err, h3.new, h3.newq⟩
  show fset _ _ _ _ = _
  rw [fset_other _ _ (Nat.ne_of_lt hp)]; rfl

theorem candid_add {ev : ℕ} {c : Callback} : Candid s (s.addCallback ev c) := by
  have hd : ∀ y, ((s.addCallback ev c).events y).defused = (s.events y).defused := fun y => by
    show (fset s.events ev _ y).defused = _
    by_cases hy : y = ev
    · subst hy; rw [fset_same]
    · rw [fset_other _ _ hy]
  exact ⟨rfl, le_rfl, fun _ _ => rfl, fun y _ => callbacks_addCallback s ev c y, fun y _ => hd y, fun y _ v hv => by rw [value_addCallback]; exact hv,
    fun y x _ hv => by rw [value_addCallback] at hv; exact hv, fun _ h h' => absurd h' (not_lt.2 h), fun _ h => .inl h⟩

theorem candidly_anyOf {a b : ℕ} : Candidly (anyOf a b) := fun s => by
  unfold anyOf
  dsimp only
  have key : ∀ (t : Sim) (ev : ℕ), Candid t (if t.processed ev then (if t.triggered s.next then t else t.trigger s.next (.ok .nothing)) else t.addCallback ev (.check s.next)) := by
    intro t ev
    split
    · split
      · exact candid_refl t
      · exact candid_trigger (untriggered ‹_›)
    · exact candid_add
  exact candid_trans (candid_trans (candid_alloc rfl (by simp) (by simp)) (key _ a)) (key _ b)

theorem candidly_w {f : Sim → Mach} : Candidly (SimM.set (fun s => { s with w := f s })) := by candid

theorem candidly_print {e : Ev} : Candidly (printEvent e) := by
  rcases printEvent_cases e with ⟨_, he⟩ | ⟨_, he⟩ <;> rw [he]
  · exact candidly_pure
  · candid

theorem candidly_activateProc {e : Ev} : Candidly (activateProc e) := by
  rcases activateProc_cases e with he | he <;> rw [he]
  · exact candidly_pure
  · intro s
    dsimp only
    split
    · exact candid_refl s
    · exact candidly_succeed s

theorem candidly_envInteraction : Candidly envInteraction := by
  intro s
  unfold envInteraction
  split
  · exact candid_refl s
  · dsimp only
    have hf : Candidly (SimM.set fun s : Sim => { s with w := { s.w with interaction := [] } }) := by candid
    split
    · exact candidly_bind candidly_succeed (fun _ => hf) s
    · exact hf s

theorem candidly_localRun {name : String} {o : Out Mach YV Unit} : Candidly (localRun name o) := by
  cases o with
  | yield w y k =>
    cases y with
    | ev e => exact candidly_bind candidly_w fun _ => candidly_bind candidly_get fun _ => candidly_bind candidly_timeout fun _ => candidly_pure
    | cont d => exact candidly_bind candidly_w fun _ => candidly_pure
    | procs => exact candidly_bind candidly_w fun _ => candidly_pure
    | nothing => exact candidly_bind candidly_w fun _ => candidly_pure
  | ret w _ => exact candidly_bind candidly_w fun _ => candidly_pure
  | raise w x => exact candidly_bind candidly_w fun _ => candidly_throw

theorem candidly_localResume {name : String} {e : Ev} {k : Mach → Out Mach YV Unit} {x : Except PyErr SVal} : Candidly (localResume name e k x) := by
  unfold localResume
  split
  · exact candidly_pure
  · exact candidly_throw
  · exact candidly_bind candidly_print fun _ => candidly_bind candidly_activateProc fun _ => candidly_bind candidly_envInteraction fun _ => candidly_bind candidly_get fun _ => candidly_localRun

theorem candidly_activateOf {name : String} : Candidly (activateOf name) := by
  intro s
  unfold activateOf
  split <;> exact candid_refl s

theorem candidly_renew {name : String} : Candidly (renewActivate name) :=
  candidly_bind candidly_newEvent fun _ => candidly_bind (by candid) fun _ => candidly_pure

theorem candidly_setStarted {l : Sim → List PItem} : Candidly (SimM.set (fun s => s.setStarted (l s))) := by
  intro s
  show Candid s (s.setStarted (l s))
  unfold Sim.setStarted
  split <;> exact candid_set rfl rfl rfl rfl rfl

theorem candidly_extraLoop (C : Cfg) {name : String} : Candidly (extraLoop C name) := by
  unfold extraLoop
  refine candidly_bind candidly_get fun l => ?_
  split
  · exact candidly_throw
  · refine candidly_bind (by candid) fun _ => candidly_bind candidly_activateOf fun a => candidly_bind candidly_get fun g => ?_
    split
    · exact candidly_bind candidly_renew fun _ => candidly_pure
    · exact candidly_pure
  · rename_i d rest _
    refine candidly_bind (candidly_setStarted (l := fun _ => rest)) fun _ => candidly_bind candidly_activateOf fun a => candidly_bind candidly_get fun g => ?_
    dsimp only
    split
    · exact candidly_bind candidly_process fun _ => candidly_pure
    · exact candidly_bind candidly_succeed fun _ => candidly_bind candidly_process fun _ => candidly_pure

theorem candidly_extraAfterMain (C : Cfg) {name : String} {pro : ℕ} {x : Except PyErr SVal} : Candidly (extraAfterMain C name pro x) := by
  unfold extraAfterMain
  split
  · refine candidly_bind candidly_get fun g => ?_
    dsimp only
    split
    · exact candidly_extraLoop C
    · exact candidly_bind candidly_interrupt fun _ => candidly_extraLoop C
  · exact candidly_throw
  · exact candidly_bind candidly_process fun _ => candidly_pure
  · exact candidly_extraLoop C

theorem candidly_extraAfterCont (C : Cfg) {name : String} {x : Except PyErr SVal} : Candidly (extraAfterCont C name x) := by
  unfold extraAfterCont
  split
  · exact candidly_extraLoop C
  · exact candidly_throw
  · exact candidly_extraLoop C

theorem candidly_interruptExtra {name : String} : Candidly (interruptExtra name) := by
  intro s
  unfold interruptExtra
  split
  · exact candidly_interrupt s
  · exact candid_refl s

theorem candidly_notify {x : PItem} : Candidly (notify x) := by
  unfold notify
  split
  · exact candidly_throw
  · refine candidly_bind candidly_activateOf fun a => candidly_bind candidly_get fun b => ?_
    dsimp only
    split
    · refine candidly_bind candidly_get fun old => ?_
      split
      · exact candidly_pure
      · split
        · exact candidly_pure
        · exact candidly_bind (by candid) fun _ => candidly_interruptExtra
    · split
      · exact candidly_bind (by candid) fun _ => candidly_succeed
      · exact candidly_succeed

theorem candidly_notifyAll : ∀ l : List PItem, Candidly (notifyAll l)
  | [] => candidly_pure
  | _ :: r => candidly_bind candidly_notify fun _ => candidly_notifyAll r

theorem candidly_procSpins {n : ℕ} : Candidly (procSpins n) := candidly_bind candidly_timeout fun _ => candidly_pure

theorem candidly_procCycle (C : Cfg) {pt : Pt} : Candidly (procCycle C pt) :=
  candidly_bind candidly_get fun _ => candidly_bind candidly_process fun _ => candidly_pure

theorem candidly_procLoop : Candidly procLoop := by
  unfold procLoop
  refine candidly_bind candidly_get fun l => ?_
  split
  · exact candidly_bind (candidly_setStarted (l := fun _ => _)) fun _ => candidly_bind candidly_get fun _ => candidly_bind (candidly_notifyAll _) fun _ => candidly_procSpins
  · refine candidly_bind candidly_get fun a => candidly_bind candidly_get fun g => ?_
    split
    · exact candidly_procSpins
    · exact candidly_pure

theorem candidly_procsReturned {v : SVal} : Candidly (procsReturned v) := by
  unfold procsReturned
  split
  · candid
  · exact candidly_throw

theorem candidly_envIter {e : EnvEvent} {k : Mach → Out Mach EnvEvent Unit} : Candidly (envIter e k) :=
  candidly_bind candidly_process fun _ => candidly_bind candidly_get fun _ => candidly_bind candidly_anyOf fun _ => candidly_pure

theorem candid_w (w : Mach) : Candid s { s with w := w } := candid_set rfl rfl rfl rfl rfl

theorem candidly_envStart (C : Cfg) : Candidly (envStart C) := by
  intro s
  unfold envStart
  split
  · exact candid_refl s
  · split
    · exact candid_trans (candid_w _) (candidly_envIter _)
    · exact candid_w _
    · exact candid_w _

theorem candidly_startAutomatic {name : String} {i : ℕ} {d : Desc} : Candidly (startAutomatic name i d) := by
  unfold startAutomatic
  refine candidly_bind (candidly_setStarted (l := fun s => _)) fun _ => candidly_bind candidly_activateOf fun a => candidly_bind candidly_get fun b => ?_
  split
  · refine candidly_bind candidly_get fun old => ?_
    split
    · exact candidly_throw
    · exact candidly_bind (by candid) fun _ => candidly_interruptExtra
  · exact candidly_bind (by candid) fun _ => candidly_succeed

theorem candidly_automatic {name : String} : Candidly (automatic name) := by
  intro s
  unfold automatic
  split
  · exact candid_refl s
  · split
    · exact candid_refl s
    · exact candid_trans (candid_w _) (candidly_startAutomatic _)

theorem candidly_automaticAll : ∀ l : List String, Candidly (automaticAll l)
  | [] => candidly_pure
  | _ :: r => candidly_bind candidly_automatic fun _ => candidly_automaticAll r

theorem candidly_envNext {pro : ℕ} : Candidly (envNext pro) := by
  unfold envNext
  refine candidly_bind candidly_get fun a => candidly_bind candidly_get fun b => ?_
  split
  · exact candidly_bind candidly_newEvent fun _ => candidly_bind (by candid) fun _ => candidly_interrupt
  · exact candidly_pure

theorem candidly_envAdvance {k : Mach → Out Mach EnvEvent Unit} : Candidly (envAdvance k) := by
  intro s
  unfold envAdvance
  split
  · exact candid_w _
  · exact candid_w _
  · exact candid_trans (candid_w _) (candidly_bind (candidly_automaticAll _) (fun _ => candidly_envIter) _)

theorem candidly_envProcStart {e : Ev} : Candidly (envProcStart e) := by
  intro s
  have h := candidly_timeout (d := e.time - s.now) s
  unfold envProcStart
  rcases ht : timeout (e.time - s.now) s with ⟨s1, x | t⟩
  · rw [ht] at h
    exact candid_trans h (candidly_bind candidly_activateProc (fun _ => candidly_throw) s1)
  · rw [ht] at h; exact h

theorem candidly_envProcResume {e : Ev} {x : Except PyErr SVal} : Candidly (envProcResume e x) := by
  unfold envProcResume
  split
  · exact candidly_bind candidly_activateProc fun _ => candidly_pure
  · exact candidly_bind candidly_activateProc fun _ => candidly_throw
  · exact candidly_bind candidly_print fun _ => candidly_bind candidly_activateProc fun _ => candidly_pure

theorem candidly_code (C : Cfg) {pt : Pt} {x : Except PyErr SVal} : Candidly (code C pt x) := by
  unfold code
  split
  · exact candidly_procCycle C
  · exact candidly_bind candidly_procsReturned fun _ => candidly_procLoop
  · exact candidly_procSpins
  · split
    · exact candidly_procCycle C
    · exact candidly_procSpins
  · exact candidly_bind candidly_procsReturned fun _ => candidly_bind candidly_newEvent fun _ => candidly_bind (by candid) fun _ => candidly_procLoop
  · exact candidly_extraLoop C
  · exact candidly_bind candidly_renew fun _ => candidly_extraLoop C
  · exact candidly_extraAfterMain C
  · exact candidly_extraAfterCont C
  · exact candidly_bind candidly_get fun _ => candidly_localRun
  · exact candidly_localResume
  · exact candidly_envStart C
  · exact candidly_bind candidly_envNext fun _ => candidly_envAdvance
  · exact candidly_envProcStart
  · exact candidly_envProcResume
  · exact candidly_throw

/-- An exception other than an interruption is passed on by every process. -/
theorem code_error (C : Cfg) (pt : Pt) (hx : x ≠ .interrupt) (s : Sim) : (code C pt (.error x) s).2 = .error x := by
  have henv : ∀ e : Ev, ((do activateProc e; SimM.throw x : SimM Res) s).2 = .error x := fun e => by
    show (SimM.bind (activateProc e) _ s).2 = _
    rcases activateProc_cases e with he | he <;> rw [he]
    · rfl
    · unfold SimM.bind
      dsimp only
      by_cases ht : s.triggered s.procActivate = true
      · rw [if_pos ht]; rfl
      · rw [if_neg ht]
        unfold succeed
        rw [if_neg ht]; rfl
  cases pt with
  | extraMain n q => cases x <;> first | rfl | exact absurd rfl hx
  | extraCont n => cases x <;> first | rfl | exact absurd rfl hx
  | localWait n e k => cases x <;> first | rfl | exact absurd rfl hx
  | envProc e =>
    have : code C (.envProc e) (.error x) = (do activateProc e; SimM.throw x : SimM Res) := by cases x <;> first | rfl | exact absurd rfl hx
    rw [this]; exact henv e
  | _ => rfl

/-! ## The invariant -/

/-- Exceptions are due at once; only interruptions are taken care of beforehand; events that have not been triggered are open. -/
structure Alert (s : Sim) : Prop where
  due : ∀ en ∈ s.queue, ∀ x, x ≠ .interrupt → (s.events en.ev).value = some (.error x) → en.time = s.now
  defused : ∀ ev < s.next, (s.events ev).defused = true → (s.events ev).callbacks.isSome → (s.events ev).value = some (.error .interrupt)
  opened : ∀ ev < s.next, (s.events ev).value = Option.none → (s.events ev).callbacks.isSome

/-- What happens when callbacks are called. -/
structure Further (s s' : Sim) : Prop where
  now : s'.now = s.now
  next : s.next ≤ s'.next
  opened : ∀ ev < s.next, (s'.events ev).callbacks.isSome = (s.events ev).callbacks.isSome
  value : ∀ ev < s.next, ∀ v, (s.events ev).value = some v → (s'.events ev).value = some v

theorem further_refl (s : Sim) : Further s s := ⟨rfl, le_rfl, fun _ _ => rfl, fun _ _ _ h => h⟩

theorem further_trans {a b c : Sim} (h1 : Further a b) (h2 : Further b c) : Further a c :=
  ⟨h2.now.trans h1.now, h1.next.trans h2.next, fun ev h => (h2.opened ev (h.trans_le h1.next)).trans (h1.opened ev h),
    fun ev h v hv => h2.value ev (h.trans_le h1.next) v (h1.value ev h v hv)⟩

theorem further_candid (h : Candid s s') : Further s s' := ⟨h.now, h.next, h.opened, h.value⟩

theorem alert_candid (h : Alert s) (hs : Candid s s') : Alert s' := by
  refine ⟨fun en hen x hx hv => ?_, fun ev hev hd hc => ?_, fun ev hev hv => ?_⟩
  · rw [hs.now]
    rcases hs.newq en hen with h1 | h1 | h1
    · exact h.due en h1 x hx (hs.err _ x hx hv)
    · exact h1
    · exact absurd hv (h1.1 x hx)
  · by_cases hlt : ev < s.next
    · rw [hs.defused ev hlt] at hd; rw [hs.opened ev hlt] at hc
      exact hs.value ev hlt _ (h.defused ev hlt hd hc)
    · exact (hs.new ev (not_lt.1 hlt) hev).2 hd
  · by_cases hlt : ev < s.next
    · rw [hs.opened ev hlt]
      refine h.opened ev hlt ?_
      cases hn : (s.events ev).value with
      | none => rfl
      | some v => rw [hs.value ev hlt v hn] at hv; cases hv
    · exact (hs.new ev (not_lt.1 hlt) hev).1

/-- Nothing that matters here changes. -/
theorem alert_same (h : Alert s) (hn : s'.now = s.now) (hx : s'.next = s.next) (hq : s'.queue = s.queue) (hv : ∀ ev, (s'.events ev).value = (s.events ev).value)
    (hd : ∀ ev, (s'.events ev).defused = (s.events ev).defused) (hc : ∀ ev, (s'.events ev).callbacks.isSome = (s.events ev).callbacks.isSome) : Alert s' :=
  ⟨fun en hen x hx hv' => by rw [hq] at hen; rw [hv] at hv'; rw [hn]; exact h.due en hen x hx hv',
    fun ev hev hd' hc' => by rw [hx] at hev; rw [hd] at hd'; rw [hc] at hc'; rw [hv]; exact h.defused ev hev hd' hc',
    fun ev hev hv' => by rw [hx] at hev; rw [hv] at hv'; rw [hc]; exact h.opened ev hev hv'⟩

theorem alert_waits {ev : ℕ} {pt : Pt} (h : Alert s) : Alert (s.waits p ev pt) ∧ Further s (s.waits p ev pt) := by
  have h0 : Candid ({ s with points := fset s.points p (some pt), target := fset s.target p ev } : Sim) (s.waits p ev pt) := candid_add
  have h1 : Alert ({ s with points := fset s.points p (some pt), target := fset s.target p ev } : Sim) := alert_same h rfl rfl rfl (fun _ => rfl) (fun _ => rfl) fun _ => rfl
  exact ⟨alert_candid h1 h0, further_trans (further_refl _) ⟨h0.now, h0.next, h0.opened, h0.value⟩⟩

/-- Triggering an event that is due at once if it is. -/
theorem alert_trigger {ev : ℕ} {v : Except PyErr SVal} (h : Alert s) (hv : ∀ en ∈ s.queue, en.ev = ev → en.time = s.now) (ho : (s.events ev).callbacks.isSome)
    (hd : (s.events ev).defused = false) : Alert (s.trigger ev v) := by
  have hoth : ∀ y, y ≠ ev → (s.trigger ev v).events y = s.events y := fun y hy => fset_other _ _ hy
  have hs : (s.trigger ev v).events ev = { s.events ev with value := some v } := fset_same _ _ _
  refine ⟨fun en hen x hx hv' => ?_, fun y hy hd' hc => ?_, fun y hy hv' => ?_⟩
  · show en.time = s.now
    rcases (mem_insertEntry _ _ _).1 hen with rfl | hen
    · exact add_zero _
    · by_cases he : en.ev = ev
      · exact hv en hen he
      · rw [hoth _ he] at hv'; exact h.due en hen x hx hv'
  · by_cases he : y = ev
    · subst he; rw [hs] at hd'; rw [show (s.events y).defused = true from hd'] at hd; cases hd
    · rw [hoth _ he] at hd' hc ⊢; exact h.defused y hy hd' hc
  · by_cases he : y = ev
    · subst he; rw [hs]; exact ho
    · rw [hoth _ he] at hv' ⊢; exact h.opened y hy hv'

theorem further_trigger {ev : ℕ} {v : Except PyErr SVal} (hv : (s.events ev).value = Option.none) : Further s (s.trigger ev v) := by
  have hoth : ∀ y, y ≠ ev → (s.trigger ev v).events y = s.events y := fun y hy => fset_other _ _ hy
  have hs : (s.trigger ev v).events ev = { s.events ev with value := some v } := fset_same _ _ _
  refine ⟨rfl, le_rfl, fun y _ => ?_, fun y _ u hu => ?_⟩
  · by_cases he : y = ev
    · subst he; rw [hs]
    · rw [hoth y he]
  · by_cases he : y = ev
    · subst he; rw [hv] at hu; cases hu
    · rw [hoth y he]; exact hu

/-- A failure that nobody has been told of. -/
def Failing (x : PyErr) (s : Sim) : Prop := ∃ ev < s.next, (s.events ev).value = some (.error x) ∧ (s.events ev).callbacks.isSome

theorem failing_further (h : Failing x s) (hf : Further s s') : Failing x s' := by
  obtain ⟨ev, h1, h2, h3⟩ := h
  exact ⟨ev, h1.trans_le hf.next, hf.value ev h1 _ h2, by rw [hf.opened ev h1]; exact h3⟩

/-- Running a process. -/
theorem alert_resume (C : Cfg) {y : Except PyErr SVal} {pt : Pt} (hi : Inv s) (h : Alert s) (hp : s.points p = some pt) :
    Alert (s.resume C p y) ∧ Further s (s.resume C p y) ∧ (∀ ev < s.next, ev ≠ p → ((s.resume C p y).events ev).defused = (s.events ev).defused) ∧
    (∀ x, x ≠ .interrupt → y = .error x → Failing x (s.resume C p y)) := by
  have hlt := points_lt hi hp
  have hv := hi.live p (by rw [hp]; rfl)
  have ho := h.opened p hlt hv
  have hdf : (s.events p).defused = false := by
    cases hd : (s.events p).defused with
    | false => rfl
    | true => have := h.defused p hlt hd ho; rw [hv] at this; cases this
  have hs := candidly_code C (pt := pt) (x := y) s
  have hends : ∀ s1 u, Candid s s1 → Alert (s1.ends p u) ∧ Further s (s1.ends p u) ∧ (∀ ev < s.next, ev ≠ p → ((s1.ends p u).events ev).defused = (s.events ev).defused) ∧
      ((s1.ends p u).events p).value = some u ∧ ((s1.ends p u).events p).callbacks.isSome := by
    intro s1 u h1
    have ha : Alert ({ s1 with points := fset s1.points p Option.none } : Sim) := alert_same (alert_candid h h1) rfl rfl rfl (fun _ => rfl) (fun _ => rfl) fun _ => rfl
    have hq : ∀ en ∈ s1.queue, en.ev = p → en.time = s1.now := fun en hen he => by
      rcases h1.newq en hen with h2 | h2 | ⟨_, h2⟩
      · have := hi.queued en h2
        rw [he, hv] at this; cases this
      · rw [h2, h1.now]
      · omega
    have ho1 : (s1.events p).callbacks.isSome := by rw [h1.opened p hlt]; exact ho
    have hsame : (s1.ends p u).events p = { s1.events p with value := some u } := fset_same _ _ _
    have hoth : ∀ z, z ≠ p → (s1.ends p u).events z = s1.events z := fun z hz => fset_other _ _ hz
    refine ⟨alert_trigger ha hq ho1 (by rw [← hdf]; exact h1.defused p hlt), ⟨h1.now, h1.next, fun ev hev => ?_, fun ev hev v' hv' => ?_⟩, fun ev hev hne => ?_, by rw [hsame], by rw [hsame]; exact ho1⟩
    · by_cases he : ev = p
      · subst he; rw [hsame]; exact h1.opened ev hev
      · rw [hoth ev he]; exact h1.opened ev hev
    · by_cases he : ev = p
      · subst he; rw [hv] at hv'; cases hv'
      · rw [hoth ev he]; exact h1.value ev hev v' hv'
    · rw [hoth ev hne]; exact h1.defused ev hev
  rw [resume_eq C hp]
  rcases hc : code C pt y s with ⟨s1, e | r⟩
  · rw [hc] at hs
    obtain ⟨a, b, c, d, f⟩ := hends s1 (.error e) hs
    refine ⟨a, b, c, fun x hx hy => ⟨p, hlt.trans_le b.next, ?_, f⟩⟩
    subst hy
    have := code_error C pt hx s
    rw [hc] at this
    cases this
    exact d
  · rw [hc] at hs
    have hno : ∀ x, x ≠ .interrupt → y = .error x → False := fun x hx hy => by
      subst hy
      have := code_error C pt hx s
      rw [hc] at this
      cases this
    cases r with
    | done v =>
      obtain ⟨a, b, c, _, _⟩ := hends s1 (.ok v) hs
      exact ⟨a, b, c, fun x hx hy => (hno x hx hy).elim⟩
    | wait ev pt' =>
      obtain ⟨a, b⟩ := alert_waits (p := p) (ev := ev) (pt := pt') (alert_candid h hs)
      refine ⟨a, further_trans (further_candid hs) b, fun z hz _ => ?_, fun x hx hy => (hno x hx hy).elim⟩
      rw [← hs.defused z hz]
      show (fset s1.events ev _ z).defused = _
      by_cases he : z = ev
      · subst he; rw [fset_same]
      · rw [fset_other _ _ he]

/-! ## Callbacks -/

theorem alert_defuse {ev : ℕ} (h : Alert s) (hc : (s.events ev).callbacks = Option.none) : Alert (s.defuse ev) ∧ Further s (s.defuse ev) := by
  have hoth : ∀ y, y ≠ ev → (s.defuse ev).events y = s.events y := fun y hy => fset_other _ _ hy
  have hs : (s.defuse ev).events ev = { s.events ev with defused := true } := fset_same _ _ _
  have hv : ∀ y, ((s.defuse ev).events y).value = (s.events y).value := fun y => by
    by_cases he : y = ev
    · subst he; rw [hs]
    · rw [hoth y he]
  have ho : ∀ y, ((s.defuse ev).events y).callbacks = (s.events y).callbacks := fun y => by
    by_cases he : y = ev
    · subst he; rw [hs]
    · rw [hoth y he]
  refine ⟨⟨fun en hen x hx hv' => h.due en hen x hx (by rw [← hv]; exact hv'), fun y hy hd hc' => ?_, fun y hy hv' => by rw [ho]; exact h.opened y hy (by rw [← hv]; exact hv')⟩,
    ⟨rfl, le_rfl, fun y _ => by rw [ho], fun y _ u hu => by rw [hv]; exact hu⟩⟩
  by_cases he : y = ev
  · subst he; rw [ho, hc] at hc'; cases hc'
  · rw [hoth y he] at hd hc' ⊢; exact h.defused y hy hd hc'

theorem alert_drop {ev : ℕ} {c : Callback} (h : Alert s) : Alert (s.dropCallback ev c) ∧ Further s (s.dropCallback ev c) ∧ ∀ y, ((s.dropCallback ev c).events y).defused = (s.events y).defused := by
  have hoth : ∀ y, y ≠ ev → (s.dropCallback ev c).events y = s.events y := fun y hy => fset_other _ _ hy
  have hs : (s.dropCallback ev c).events ev = { s.events ev with callbacks := (s.events ev).callbacks.map (·.erase c) } := fset_same _ _ _
  have hv : ∀ y, ((s.dropCallback ev c).events y).value = (s.events y).value := fun y => by
    by_cases he : y = ev
    · subst he; rw [hs]
    · rw [hoth y he]
  have hd : ∀ y, ((s.dropCallback ev c).events y).defused = (s.events y).defused := fun y => by
    by_cases he : y = ev
    · subst he; rw [hs]
    · rw [hoth y he]
  have ho : ∀ y, ((s.dropCallback ev c).events y).callbacks.isSome = (s.events y).callbacks.isSome := fun y => by
    by_cases he : y = ev
    · subst he; rw [hs]; simp
    · rw [hoth y he]
  exact ⟨alert_same h rfl rfl rfl hv hd ho, ⟨rfl, le_rfl, fun y _ => ho y, fun y _ u hu => by rw [hv]; exact hu⟩, hd⟩

/-- The event whose callbacks are called: it is no longer open. -/
structure Taken (ev : ℕ) (s : Sim) : Prop where
  lt : ev < s.next
  closed : (s.events ev).callbacks = Option.none
  value : (s.events ev).value.isSome

theorem taken_further {ev : ℕ} (h : Taken ev s) (hf : Further s s') : Taken ev s' := by
  refine ⟨h.lt.trans_le hf.next, ?_, ?_⟩
  · have := hf.opened ev h.lt
    rw [h.closed] at this
    simpa using this
  · obtain ⟨v, hv⟩ := Option.isSome_iff_exists.1 h.value
    rw [hf.value ev h.lt v hv]; rfl

theorem alert_callback (C : Cfg) {ev : ℕ} {v : Except PyErr SVal} {cb : Callback} {l : List Callback} (hi : Inv s) (hp : Pending ev v (cb :: l) s) (h : Alert s) (ht : Taken ev s) :
    Alert (callback C ev v s cb) ∧ Further s (callback C ev v s cb) ∧
    (∀ x, x ≠ .interrupt → v = .error x → Failing x (callback C ev v s cb) ∨ ((callback C ev v s cb).events ev).defused = (s.events ev).defused) := by
  have hself : Alert s ∧ Further s s ∧ (∀ x, x ≠ .interrupt → v = .error x → Failing x s ∨ (s.events ev).defused = (s.events ev).defused) := ⟨h, further_refl s, fun _ _ _ => .inr rfl⟩
  have hne : ∀ q pt, s.points q = some pt → ev ≠ q := fun q pt hq he => by
    have := hi.live q (by rw [hq]; rfl)
    rw [← he] at this
    have h2 := ht.value
    rw [this] at h2; cases h2
  cases cb with
  | resume p =>
    obtain ⟨_, _, pt, hpt, _⟩ := hp.res p (.head _)
    unfold callback
    rcases v with x | v
    · obtain ⟨h1, h2⟩ := alert_defuse h ht.closed
      have hi' : Inv (s.defuse ev) := inv_thin hi thin_defuse hi.sorted (fun _ h => h) hi.ahead le_rfl rfl rfl rfl rfl
      obtain ⟨a, b, _, d⟩ := alert_resume C (y := .error x) hi' h1 (p := p) (pt := pt) hpt
      exact ⟨a, further_trans h2 b, fun y hy he => .inl (d y hy he)⟩
    · obtain ⟨a, b, _, _⟩ := alert_resume C (y := .ok v) hi h hpt
      exact ⟨a, b, fun y _ he => by cases he⟩
  | interrupt p =>
    obtain ⟨rfl, _⟩ := hp.intr p (.head _)
    unfold callback
    dsimp only
    split
    · exact hself
    · obtain ⟨h1, h2, _⟩ := alert_drop (ev := s.target p) (c := .resume p) h
      have hi' : Inv (s.dropCallback (s.target p) (.resume p)) := inv_thin hi (thin_drop (by simp)) hi.sorted (fun _ h => h) hi.ahead le_rfl rfl rfl rfl rfl
      cases hpt : s.points p with
      | none =>
        have : (s.dropCallback (s.target p) (.resume p)).resume C p (.error .interrupt) = s.dropCallback (s.target p) (.resume p) := by
          unfold Sim.resume
          have : (s.dropCallback (s.target p) (.resume p)).points p = Option.none := hpt
          rw [this]
        rw [this]
        exact ⟨h1, h2, fun y hy he => by cases he; exact absurd rfl hy⟩
      | some pt =>
        obtain ⟨a, b, _, _⟩ := alert_resume C (y := .error .interrupt) hi' h1 (p := p) (pt := pt) hpt
        exact ⟨a, further_trans h2 b, fun y hy he => by cases he; exact absurd rfl hy⟩
  | check c =>
    unfold callback
    dsimp only
    split
    · exact hself
    · rename_i htr
      have hv := untriggered htr
      have hq := hp.chk c (.head _)
      have ho := h.opened c hq.1 hv
      have hdf : (s.events c).defused = false := by
        cases hd : (s.events c).defused with
        | false => rfl
        | true => have := h.defused c hq.1 hd ho; rw [hv] at this; cases this
      have hnq : ∀ en ∈ s.queue, en.ev = c → en.time = s.now := fun en hen he => by
        have := hi.queued en hen
        rw [he, hv] at this; cases this
      have hec : c ≠ ev := fun he => by
        have h2 := ht.value
        rw [← he, hv] at h2; cases h2
      rcases v with x | v
      · obtain ⟨h1, h2⟩ := alert_defuse h ht.closed
        have hsame : (s.defuse ev).events c = s.events c := fset_other _ _ hec
        refine ⟨alert_trigger h1 hnq (by rw [hsame]; exact ho) (by rw [hsame]; exact hdf), further_trans h2 (further_trigger (by rw [hsame]; exact hv)), fun y _ he => .inl ?_⟩
        cases he
        refine ⟨c, hq.1, ?_, ?_⟩
        · show (fset (s.defuse ev).events c _ c).value = _; rw [fset_same]
        · show (fset (s.defuse ev).events c _ c).callbacks.isSome = _; rw [fset_same, hsame]; exact ho
      · exact ⟨alert_trigger h hnq ho hdf, further_trigger hv, fun y _ he => by cases he⟩
  | build c a b =>
    obtain ⟨h1, h2, h3⟩ := alert_drop (ev := a) (c := .check c) h
    obtain ⟨h4, h5, h6⟩ := alert_drop (ev := b) (c := .check c) h1
    exact ⟨h4, further_trans h2 h5, fun _ _ _ => .inr ((h6 ev).trans (h3 ev))⟩
  | stop => exact hself

theorem alert_callbacks (C : Cfg) {ev : ℕ} {v : Except PyErr SVal} : ∀ (l : List Callback) {s : Sim}, Good C.ruleFiring s → Pending ev v l s → Alert s → Taken ev s →
    Alert (l.foldl (callback C ev v) s) ∧ Further s (l.foldl (callback C ev v) s) ∧
    (∀ x, x ≠ .interrupt → v = .error x → Failing x (l.foldl (callback C ev v) s) ∨ ((l.foldl (callback C ev v) s).events ev).defused = (s.events ev).defused)
  | [], s, _, _, h, _ => ⟨h, further_refl s, fun _ _ _ => .inr rfl⟩
  | cb :: l, s, hg, hp, h, ht => by
    obtain ⟨a, b, _⟩ := good_callback C hg hp
    obtain ⟨c, d, e⟩ := alert_callback C hg.1.1 hp h ht
    obtain ⟨f, g, i⟩ := alert_callbacks C l a b c (taken_further ht d)
    refine ⟨f, further_trans d g, fun x hx hv => ?_⟩
    rcases i x hx hv with h1 | h1
    · exact .inl h1
    · rcases e x hx hv with h2 | h2
      · exact .inl (failing_further h2 g)
      · exact .inr (h1.trans h2)

/-! ## Steps -/

theorem alert_taken {en : Entry} {q : List Entry} (hi : Inv s) (h : Alert s) (hq : s.queue = en :: q) : Alert (s.taken en q) := by
  have hoth : ∀ y, y ≠ en.ev → (s.taken en q).events y = s.events y := fun y hy => fset_other _ _ hy
  have hs : (s.taken en q).events en.ev = { s.events en.ev with callbacks := Option.none } := fset_same _ _ _
  have hv : ∀ y, ((s.taken en q).events y).value = (s.events y).value := fun y => (thin_taken s en q).value y
  refine ⟨fun e he x hx hv' => ?_, fun y hy hd hc => ?_, fun y hy hv' => ?_⟩
  · have he' : e ∈ s.queue := by rw [hq]; exact .tail _ he
    have h1 := h.due e he' x hx (by rw [← hv]; exact hv')
    have h2 := hi.sorted
    rw [hq] at h2
    have h3 := upTo_le ((List.pairwise_cons.1 h2).1 e he)
    have h4 := hi.ahead en (by rw [hq]; exact .head _)
    show e.time = en.time
    linarith
  · by_cases he : y = en.ev
    · subst he; rw [hs] at hc; cases hc
    · rw [hoth y he] at hd hc ⊢; exact h.defused y hy hd hc
  · rw [hv] at hv'
    by_cases he : y = en.ev
    · subst he
      have := hi.queued en (by rw [hq]; exact .head _)
      rw [hv'] at this; cases this
    · rw [hoth y he]; exact h.opened y hy hv'

theorem alert_called (C : Cfg) {en : Entry} {q : List Entry} (hf : Fine C.ruleFiring s) (h : Alert s) (hq : s.queue = en :: q) (hstop : .stop ∉ s.cbs en.ev) :
    Alert (s.called C en q) ∧ Further (s.taken en q) (s.called C en q) ∧
    (∀ x, x ≠ .interrupt → (s.events en.ev).value = some (.error x) → Failing x (s.called C en q) ∨ ((s.called C en q).events en.ev).defused = (s.events en.ev).defused) := by
  have hen : en ∈ s.queue := by rw [hq]; exact .head _
  have hft := fine_taken hf hq
  have ha := alert_taken hf.1 h hq
  have hs : (s.taken en q).events en.ev = { s.events en.ev with callbacks := Option.none } := fset_same _ _ _
  have ht : Taken en.ev (s.taken en q) := ⟨hf.1.known en hen, by rw [hs], by rw [hs]; exact hf.1.queued en hen⟩
  unfold Sim.called
  rcases hf.1.grid en hen with hg | hg
  · obtain ⟨a, b, c⟩ := alert_callbacks C (s.cbs en.ev) (s := s.taken en q) ⟨⟨hft.1, hg⟩, hft.2⟩ (pending_taken hf.1 hq) ha ht
    refine ⟨a, b, fun x hx hv => ?_⟩
    rcases c x hx (by rw [hv]; rfl) with h1 | h1
    · exact .inl h1
    · exact .inr (by rw [h1, hs])
  · have : s.cbs en.ev = [] := by simp [Sim.cbs, hg.resolve_left hstop]
    rw [this]
    exact ⟨ha, further_refl _, fun x hx hv => .inr (by show ((s.taken en q).events en.ev).defused = _; rw [hs])⟩

theorem alert_step {C : Cfg} (hf : Fine C.ruleFiring s) (h : Alert s) (hs : Stepped.leads (s.step C) s') : Alert s' := by
  have hcases := step_cases (C := C) (s := s) rfl
  rcases hcases with ⟨h0, _⟩ | ⟨en, q, hq, ⟨_, h0⟩ | ⟨hst, h0 | ⟨x, h0⟩⟩⟩ <;> rw [h0] at hs <;> rcases hs with hs | hs | ⟨_, hs⟩ <;> cases hs
  · exact alert_taken hf.1 h hq
  · exact (alert_called C hf h hq hst).1
  · exact (alert_called C hf h hq hst).1

/-- Failures are due at once. -/
theorem failing_head (hi : Inv s) (ha : Awake (fun _ => False) s) (h : Alert s) (hx : x ≠ .interrupt) (hf : Failing x s) : ∃ en q, s.queue = en :: q ∧ en.time = s.now := by
  obtain ⟨ev, _, h2, h3⟩ := hf
  obtain ⟨en, hen, he⟩ := ha.queued ev (by rw [h2]; rfl) h3
  have ht := h.due en hen x hx (by rw [he]; exact h2)
  cases hq : s.queue with
  | nil => rw [hq] at hen; cases hen
  | cons e q =>
    refine ⟨e, q, rfl, le_antisymm ?_ (hi.ahead e (by rw [hq]; exact .head _))⟩
    rw [hq] at hen
    rcases List.mem_cons.1 hen with rfl | hen
    · exact ht.le
    · have := hi.sorted
      rw [hq] at this
      rw [← ht]; exact upTo_le ((List.pairwise_cons.1 this).1 en hen)

/-- Only events that succeed stop `run`. -/
def Halting (s : Sim) : Prop := ∀ ev, .stop ∈ s.cbs ev → (s.events ev).value = some (.ok .nothing)

theorem halting_taken {en : Entry} {q : List Entry} (h : Halting s) : Halting (s.taken en q) := fun ev hs => by
  rw [(thin_taken s en q).value]
  exact h ev (((thin_taken s en q).sub ev).subset hs)

theorem halting_step {C : Cfg} (hf : Fine C.ruleFiring s) (h : Halting s) (hs : Stepped.leads (s.step C) s') : Halting s' := by
  have key : ∀ en q, s.queue = en :: q → .stop ∉ s.cbs en.ev → Halting (s.called C en q) := fun en q hq hst ev hs => by
    obtain ⟨_, h1⟩ := fine_called C hf hq hst
    exact h1.value ev _ (halting_taken h ev ((h1.stops ev).1 hs))
  rcases step_cases (C := C) (s := s) rfl with ⟨h0, _⟩ | ⟨en, q, hq, ⟨_, h0⟩ | ⟨hst, h0 | ⟨x, h0⟩⟩⟩ <;> rw [h0] at hs <;> rcases hs with hs | hs | ⟨_, hs⟩ <;> cases hs
  · exact halting_taken h
  · exact key en q hq hst
  · exact key en q hq hst

/-- Failures stay or are raised; the clock stands still. -/
theorem failing_step {C : Cfg} {r : Stepped} (hf : Fine C.ruleFiring s) (ha : Awake (fun _ => False) s) (h : Alert s) (hh : Halting s) (hx : x ≠ .interrupt) (hx' : Failing x s) (hr : s.step C = r) :
    (r = .ok s' ∨ r = .stopped s' → Failing x s' ∧ s'.now = s.now) ∧ (∀ y, r = .raised s' y → (y = x ∨ Failing x s') ∧ s'.now = s.now) ∧ r ≠ .empty := by
  obtain ⟨en, q, hq, hnow⟩ := failing_head hf.1 ha h hx hx'
  obtain ⟨ev, h1, h2, h3⟩ := hx'
  have hoth : ∀ y, y ≠ en.ev → (s.taken en q).events y = s.events y := fun y hy => fset_other _ _ hy
  have htaken : ev ≠ en.ev → Failing x (s.taken en q) := fun he => ⟨ev, h1, by rw [hoth ev he]; exact h2, by rw [hoth ev he]; exact h3⟩
  rw [step_eq, hq] at hr
  dsimp only at hr
  by_cases hst : .stop ∈ s.cbs en.ev
  · rw [if_pos hst] at hr
    subst hr
    refine ⟨fun hr => ?_, fun y hr => by simp at hr, by simp⟩
    rcases hr with hr | hr <;> cases hr
    refine ⟨htaken fun he => ?_, hnow⟩
    subst he
    rw [hh en.ev hst] at h2; cases h2
  · rw [if_neg hst] at hr
    obtain ⟨_, b, c⟩ := alert_called C hf h hq hst
    have hcn := b.now.trans hnow
    by_cases he : ev = en.ev
    · subst he
      rw [h2] at hr
      dsimp only [Option.getD] at hr
      rcases c x hx h2 with h4 | h4
      · split at hr <;> subst hr
        · refine ⟨fun hr => ?_, fun y hr => by simp at hr, by simp⟩
          rcases hr with hr | hr <;> cases hr
          exact ⟨h4, hcn⟩
        · refine ⟨fun hr => by simp at hr, fun y hr => ?_, by simp⟩
          cases hr
          exact ⟨.inl rfl, hcn⟩
      · have : (s.events en.ev).defused = false := by
          cases hd : (s.events en.ev).defused with
          | false => rfl
          | true => have := h.defused en.ev h1 hd h3; rw [h2] at this; cases this; exact absurd rfl hx
        rw [h4, this] at hr
        subst hr
        refine ⟨fun hr => by simp at hr, fun y hr => ?_, by simp⟩
        cases hr
        exact ⟨.inl rfl, hcn⟩
    · have hfail := failing_further (htaken he) b
      have hok : ∀ {r}, Stepped.ok (s.called C en q) = r → (r = .ok s' ∨ r = .stopped s' → Failing x s' ∧ s'.now = s.now) ∧ (∀ y, r = .raised s' y → (y = x ∨ Failing x s') ∧ s'.now = s.now) ∧ r ≠ .empty := by
        rintro r rfl
        refine ⟨fun hr => ?_, fun y hr => by simp at hr, by simp⟩
        rcases hr with hr | hr <;> cases hr
        exact ⟨hfail, hcn⟩
      split at hr
      · split at hr
        · exact hok hr
        · subst hr
          refine ⟨fun hr => by simp at hr, fun y hr => ?_, by simp⟩
          cases hr
          exact ⟨.inr hfail, hcn⟩
      · exact hok hr

/-! ## The whole simulation -/

theorem candidly_initExtra : ∀ l : List String, Candidly (initExtra l)
  | [] => candidly_pure
  | n :: r => by
    unfold initExtra
    dsimp only
    split
    · exact candidly_initExtra r
    · exact candidly_bind candidly_process fun _ => candidly_bind candidly_newEvent fun _ => candidly_bind (by candid) fun _ => candidly_initExtra r

theorem alert_init (w : Mach) (args : Option EnvArgs) (t : ℚ) : Alert (Sim.init w args t) := by
  have h0 : Alert (Sim.blank w args t) := by
    refine ⟨(fun en hen => by cases hen), (fun ev _ hd => by cases hd), fun ev hev _ => ?_⟩
    have : ev < 2 := hev
    show (if ev < 2 then some [] else Option.none : Option (List Callback)).isSome
    rw [if_pos this]; rfl
  have h1 : Candidly (do
    let _ ← process .procNew
    initExtra (w.bufs.map Prod.fst)
    if w.env.isSome then do
      let _ ← process .envNew
      pure ()
    else pure () : SimM Unit) := by
    refine candidly_bind candidly_process fun _ => candidly_bind (candidly_initExtra _) fun _ => ?_
    split
    · exact candidly_bind candidly_process fun _ => candidly_pure
    · exact candidly_pure
  exact alert_candid h0 (h1 _)

theorem alert_setStop {q : ℚ} (h : Alert s) (hh : Halting s) : (Alert (s.setStop q).1 ∧ Halting (s.setStop q).1) ∧ Further s (s.setStop q).1 := by
  unfold Sim.setStop
  split
  · exact ⟨⟨h, hh⟩, further_refl s⟩
  · have hs : Candid s ((s.alloc ⟨some (.ok .nothing), false, some [.stop]⟩).schedule s.next true (q - s.now)) :=
      candid_schedule (candid_alloc rfl (by simp) (by simp)) (.inr ⟨fun x _ => by rw [events_alloc_new]; simp, le_rfl⟩)
    refine ⟨⟨alert_candid h hs, fun ev hev => ?_⟩, further_candid hs⟩
    change .stop ∈ (s.alloc _).cbs ev at hev
    show ((s.alloc _).events ev).value = _
    by_cases he : ev = s.next
    · subst he; rw [events_alloc_new]
    · rw [cbs_alloc_old he] at hev; rw [events_alloc_old he]; exact hh ev hev

theorem alert_compile {C : Cfg} (h : Alert s) (hh : Halting s) : (Alert (compileAtEnd C s).1 ∧ Halting (compileAtEnd C s).1) ∧ Further s (compileAtEnd C s).1 := by
  unfold compileAtEnd
  split
  · split <;> exact ⟨⟨alert_same h rfl rfl rfl (fun _ => rfl) (fun _ => rfl) fun _ => rfl, hh⟩, rfl, le_rfl, fun _ _ => rfl, fun _ _ _ h => h⟩
  · exact ⟨⟨h, hh⟩, further_refl s⟩

theorem alert_reachable {C : Cfg} {w : Mach} {args : Option EnvArgs} {t : ℚ} (h : Reachable C w args t s) : Alert s ∧ Halting s := by
  induction h with
  | init => exact ⟨alert_init w args t, fun ev hs => absurd hs ((noStop_init w args t).1 ev)⟩
  | @stop s1 _ q _ _ hs ih => have := (alert_setStop (q := q) ih.1 ih.2).1; rw [hs] at this; exact this
  | step hr hs ih => exact ⟨alert_step (fine_reachable hr) ih.1 (.inl hs), halting_step (fine_reachable hr) ih.2 (.inl hs)⟩
  | stopped hr hs ih => exact ⟨alert_step (fine_reachable hr) ih.1 (.inr (.inl hs)), halting_step (fine_reachable hr) ih.2 (.inr (.inl hs))⟩
  | raised hr hs ih => exact ⟨alert_step (fine_reachable hr) ih.1 (.inr (.inr ⟨_, hs⟩)), halting_step (fine_reachable hr) ih.2 (.inr (.inr ⟨_, hs⟩))⟩
  | @compile s1 _ _ _ hs ih => have := (alert_compile (C := C) ih.1 ih.2).1; rw [hs] at this; exact this

/-- What comes after a reachable state is reachable. -/
theorem reachable_without {C : Cfg} {w : Mach} {args : Option EnvArgs} {t : ℚ} (h : Reachable C w args t s) (hg : GoesOnWithout C x s s') : Reachable C w args t s' := by
  induction hg with
  | refl => exact h
  | step _ hs ih => exact ih.step hs
  | stopped _ hs ih => exact ih.stopped hs
  | raised _ _ hs ih => exact ih.raised hs
  | @stop s1 t _ ih => exact ih.stop (r := (s1.setStop t).2) rfl
  | @compile s1 _ ih => exact ih.compile (r := (compileAtEnd C s1).2) rfl

theorem failing_without {C : Cfg} {w : Mach} {args : Option EnvArgs} {t : ℚ} (h : Reachable C w args t s) (hx : x ≠ .interrupt) (hf : Failing x s) (hg : GoesOnWithout C x s s') :
    Failing x s' ∧ s'.now = s.now := by
  induction hg with
  | refl => exact ⟨hf, rfl⟩
  | step hg hs ih =>
    have hr := reachable_without h hg
    obtain ⟨h1, h2⟩ := (failing_step (fine_reachable hr) (awake_reachable hr) (alert_reachable hr).1 (alert_reachable hr).2 hx ih.1 hs).1 (.inl rfl)
    exact ⟨h1, h2.trans ih.2⟩
  | stopped hg hs ih =>
    have hr := reachable_without h hg
    obtain ⟨h1, h2⟩ := (failing_step (fine_reachable hr) (awake_reachable hr) (alert_reachable hr).1 (alert_reachable hr).2 hx ih.1 hs).1 (.inr rfl)
    exact ⟨h1, h2.trans ih.2⟩
  | raised hg hy hs ih =>
    have hr := reachable_without h hg
    obtain ⟨h1, h2⟩ := (failing_step (fine_reachable hr) (awake_reachable hr) (alert_reachable hr).1 (alert_reachable hr).2 hx ih.1 hs).2.1 _ rfl
    exact ⟨h1.resolve_left hy, h2.trans ih.2⟩
  | stop t hg ih =>
    have hr := alert_reachable (reachable_without h hg)
    have := (alert_setStop (q := t) hr.1 hr.2).2
    exact ⟨failing_further ih.1 this, this.now.trans ih.2⟩
  | compile hg ih =>
    have hr := alert_reachable (reachable_without h hg)
    have := (alert_compile (C := C) hr.1 hr.2).2
    exact ⟨failing_further ih.1 this, this.now.trans ih.2⟩

/-- A process that ends with an exception. -/
theorem failing_fails {C : Cfg} {w : Mach} {args : Option EnvArgs} {t : ℚ} (h : Reachable C w args t s) (hf : FailsIn C s s' p x) : Failing x s' := by
  obtain ⟨hs, hp, _, hv⟩ := hf
  obtain ⟨pt, hp⟩ := Option.ne_none_iff_exists'.1 hp
  have hfi := fine_reachable h
  have hal := alert_reachable h
  have hlt := points_lt hfi.1 hp
  have hn := hfi.1.live p (by rw [hp]; rfl)
  have ho := hal.1.opened p hlt hn
  have key : ∀ en q, s.queue = en :: q → Further (s.taken en q) s' → (s'.events p).callbacks.isSome ∧ p < s'.next := fun en q hq hfu => by
    have hne : p ≠ en.ev := fun he => by
      have := hfi.1.queued en (by rw [hq]; exact .head _)
      rw [← he, hn] at this; cases this
    refine ⟨?_, hlt.trans_le hfu.next⟩
    rw [hfu.opened p hlt]
    show (fset s.events en.ev _ p).callbacks.isSome = _
    rw [fset_other _ _ hne]; exact ho
  have : (s'.events p).callbacks.isSome ∧ p < s'.next := by
    rcases step_cases (C := C) (s := s) rfl with ⟨h0, _⟩ | ⟨en, q, hq, ⟨_, h0⟩ | ⟨hst, h0 | ⟨x, h0⟩⟩⟩ <;> rw [h0] at hs <;> rcases hs with hs | hs | ⟨_, hs⟩ <;> cases hs
    · exact key en q hq (further_refl _)
    · exact key en q hq (alert_called C hfi hal.1 hq hst).2.1
    · exact key en q hq (alert_called C hfi hal.1 hq hst).2.1
  exact ⟨p, this.2, hv, this.1⟩

end Verif
