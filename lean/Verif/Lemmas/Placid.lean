import Verif.Lemmas.Hush
import Verif.Lemmas.Strike
import Verif.Lemmas.Firm
import Verif.Lemmas.Origin
/-! # Only interrupted processes raise simpy.Interrupt -/
namespace Verif
open Verif.Spec

variable {err : PyErr} [Foreign err] {A B : Type} {C : Cfg} {s s' : Sim} {p : ℕ} {w0 : Mach}

/-- The event failed with a simpy.Interrupt. -/
def Hit (s : Sim) (ev : ℕ) : Prop := (s.events ev).value = some (.error .interrupt)

/-- The event is an interruption, or it was one before its callbacks were called. -/
def Marked (s : Sim) (ev : ℕ) : Prop := (s.events ev).defused = true ∧ ((s.events ev).callbacks = Option.none ∨ ∃ q, .interrupt q ∈ s.cbs ev)

/-- No event fails with a simpy.Interrupt, except for new interruptions. -/
structure Placid (s s' : Sim) : Prop where
  next : s.next ≤ s'.next
  extra : ∀ x ∈ s.extra, x ∈ s'.extra
  evs : ∀ ev, Hit s' ev → (Hit s ev ∧ (Marked s ev → Marked s' ev)) ∨ (s.next ≤ ev ∧ Marked s' ev)

theorem placid_refl (s : Sim) : Placid s s := ⟨le_rfl, fun _ h => h, fun _ h => .inl ⟨h, id⟩⟩
theorem placid_trans {a b c : Sim} (h1 : Placid a b) (h2 : Placid b c) : Placid a c :=
  ⟨h1.next.trans h2.next, fun x h => h2.extra x (h1.extra x h), fun ev h => by
    rcases h2.evs ev h with ⟨h3, h4⟩ | ⟨h3, h4⟩
    · rcases h1.evs ev h3 with ⟨h5, h6⟩ | ⟨h5, h6⟩
      · exact .inl ⟨h5, fun h => h4 (h6 h)⟩
      · exact .inr ⟨h5, h4 h6⟩
    · exact .inr ⟨h1.next.trans h3, h4⟩⟩
theorem placid_same (h1 : s'.events = s.events) (h2 : s'.next = s.next) (h3 : s'.extra = s.extra) : Placid s s' :=
  ⟨h2.ge, fun _ h => h3 ▸ h, fun ev h => .inl ⟨by unfold Hit at h ⊢; rw [← h1]; exact h, fun hm => by unfold Marked Sim.cbs at hm ⊢; rw [h1]; exact hm⟩⟩
/-- A change of one event. -/
theorem placid_fset {ev : ℕ} {E : SEv} (h : E.value ≠ some (.error .interrupt) ∨ (E.value = (s.events ev).value ∧ ((s.events ev).defused = true → E.defused = true) ∧
    ((s.events ev).callbacks = Option.none → E.callbacks = Option.none) ∧ ∀ q, .interrupt q ∈ s.cbs ev → .interrupt q ∈ E.callbacks.getD [])) : Placid s { s with events := fset s.events ev E } := by
  refine ⟨le_rfl, fun _ h => h, fun x hx => .inl ?_⟩
  unfold Hit at hx
  dsimp only at hx
  by_cases he : x = ev
  · subst he
    rw [fset_same] at hx
    rcases h with h | ⟨h1, h0, h2, h3⟩
    · exact absurd hx h
    · refine ⟨h1.symm.trans hx, fun hm => ?_⟩
      unfold Marked Sim.cbs
      dsimp only
      rw [fset_same]
      exact ⟨h0 hm.1, hm.2.imp h2 fun ⟨q, hq⟩ => ⟨q, h3 q hq⟩⟩
  · rw [fset_other _ _ he] at hx
    refine ⟨hx, fun hm => ?_⟩
    unfold Marked Sim.cbs at hm ⊢
    dsimp only
    rw [fset_other _ _ he]
    exact hm
theorem placid_alloc {E : SEv} (h : E.value = some (.error .interrupt) → E.defused = true ∧ ∃ q, .interrupt q ∈ E.callbacks.getD []) : Placid s (s.alloc E) := by
  refine ⟨Nat.le_succ _, fun _ h => h, fun x hx => ?_⟩
  unfold Hit at hx
  by_cases he : x = s.next
  · subst he
    rw [events_alloc_new] at hx
    refine .inr ⟨le_rfl, ?_⟩
    unfold Marked Sim.cbs
    rw [events_alloc_new]
    exact ⟨(h hx).1, .inr (h hx).2⟩
  · rw [events_alloc_old he] at hx
    refine .inl ⟨hx, fun hm => ?_⟩
    unfold Marked Sim.cbs at hm ⊢
    rw [events_alloc_old he]
    exact hm
theorem placid_schedule {ev : ℕ} {u : Bool} {d : ℚ} : Placid s (s.schedule ev u d) := placid_same rfl rfl rfl
theorem placid_trigger {ev : ℕ} {v : Except PyErr SVal} (h : v ≠ .error .interrupt) : Placid s (s.trigger ev v) :=
  placid_trans (placid_fset (.inl fun h' => h (Option.some.inj h'))) placid_schedule
theorem placid_addCallback {ev : ℕ} {c : Callback} : Placid s (s.addCallback ev c) :=
  placid_fset (.inr ⟨rfl, id, (fun h => by dsimp only; rw [h]; rfl), fun q hq => by
    unfold Sim.cbs at hq
    dsimp only
    cases hc : (s.events ev).callbacks with
    | none => rw [hc] at hq; cases hq
    | some l => rw [hc] at hq; exact List.mem_append_left _ hq⟩)
theorem placid_drop {ev : ℕ} {c : Callback} (hc : ∀ q, c ≠ .interrupt q) : Placid s (s.dropCallback ev c) :=
  placid_fset (.inr ⟨rfl, id, (fun h => by dsimp only; rw [h]; rfl), fun q hq => by
    unfold Sim.cbs at hq
    dsimp only
    cases hl : (s.events ev).callbacks with
    | none => rw [hl] at hq; cases hq
    | some l => rw [hl] at hq; exact (List.mem_erase_of_ne (hc q).symm).2 hq⟩)
theorem placid_defuse {ev : ℕ} : Placid s (s.defuse ev) := placid_fset (.inr ⟨rfl, fun _ => rfl, id, fun _ h => h⟩)
theorem placid_taken {en : Entry} {q : List Entry} : Placid s (s.taken en q) := by
  refine placid_trans (b := { s with events := fset s.events en.ev { s.events en.ev with callbacks := Option.none } }) ⟨le_rfl, fun _ h => h, fun x hx => .inl ?_⟩ (placid_same rfl rfl rfl)
  unfold Hit at hx
  dsimp only at hx
  by_cases he : x = en.ev
  · subst he
    rw [fset_same] at hx
    refine ⟨hx, fun hm => ⟨?_, .inl ?_⟩⟩
    · dsimp only; rw [fset_same]; exact hm.1
    · dsimp only; rw [fset_same]
  · rw [fset_other _ _ he] at hx
    refine ⟨hx, fun hm => ?_⟩
    unfold Marked Sim.cbs at hm ⊢
    dsimp only
    rw [fset_other _ _ he]
    exact hm

/-! ## Code that starts no process -/

/-- The code raises no simpy.Interrupt and makes no event fail with one. -/
def Serene (m : SimM A) : Prop := ∀ s, Placid s (m s).1 ∧ (m s).2 ≠ .error .interrupt

theorem serene_bind {m : SimM A} {f : A → SimM B} (hm : Serene m) (hf : ∀ a, Serene (f a)) : Serene (m >>= f) := by
  intro s
  show Placid s (SimM.bind m f s).1 ∧ (SimM.bind m f s).2 ≠ _
  unfold SimM.bind
  have h1 := hm s
  rcases h : m s with ⟨s1, e | a⟩
  · rw [h] at h1
    exact ⟨h1.1, fun h' => h1.2 (by cases h'; rfl)⟩
  · rw [h] at h1
    exact ⟨placid_trans h1.1 (hf a s1).1, (hf a s1).2⟩
theorem serene_pure {a : A} : Serene (pure a : SimM A) := fun s => ⟨placid_refl s, fun h => by cases h⟩
theorem serene_throw {e : PyErr} (h : e ≠ .interrupt) : Serene (SimM.throw e : SimM A) := fun s => ⟨placid_refl s, fun h' => h (by cases h'; rfl)⟩
theorem serene_get {f : Sim → A} : Serene (SimM.get f) := fun s => ⟨placid_refl s, fun h => by cases h⟩
theorem serene_set {f : Sim → Sim} (h : ∀ s : Sim, (f s).events = s.events ∧ (f s).next = s.next ∧ (f s).extra = s.extra) : Serene (SimM.set f) :=
  fun s => ⟨placid_same (h s).1 (h s).2.1 (h s).2.2, fun h => by cases h⟩
theorem serene_ite {c : Prop} [Decidable c] {m m' : SimM A} (h : Serene m) (h' : Serene m') : Serene (if c then m else m') := by split <;> assumption
theorem serene_newEvent : Serene newEvent := fun s => ⟨placid_alloc (fun h => by cases h), fun h => by cases h⟩
theorem serene_succeed {ev : ℕ} : Serene (succeed ev) := fun s => by
  unfold succeed
  split
  · exact ⟨placid_refl s, fun h => by cases h⟩
  · exact ⟨placid_trigger (fun h => by cases h), fun h => by cases h⟩
theorem serene_timeout {d : ℚ} : Serene (timeout d) := fun s => by
  unfold timeout
  split
  · exact ⟨placid_refl s, fun h => by cases h⟩
  · exact ⟨placid_trans (placid_alloc (fun h => by cases h)) placid_schedule, fun h => by cases h⟩
theorem serene_interrupt {r : ℕ} : Serene (interruptProcess r) := fun s => by
  unfold interruptProcess
  split
  · exact ⟨placid_refl s, fun h => by cases h⟩
  · exact ⟨placid_trans (placid_alloc fun _ => ⟨rfl, r, .head _⟩) placid_schedule, fun h => by cases h⟩
theorem serene_anyOf {x y : ℕ} : Serene (anyOf x y) := fun s => by
  have key : ∀ (c ev : ℕ) (s : Sim), Placid s (if s.processed ev then (if s.triggered c then s else s.trigger c (.ok .nothing)) else s.addCallback ev (.check c)) := fun c ev s => by
    split
    · split
      · exact placid_refl s
      · exact placid_trigger (fun h => by cases h)
    · exact placid_addCallback
  exact ⟨placid_trans (placid_trans (placid_alloc (E := ⟨Option.none, false, some [.build s.next x y]⟩) (fun h => by cases h)) (key s.next x _)) (key s.next y _), fun h => by cases h⟩
theorem serene_activateOf {name : String} : Serene (activateOf name) := fun s => by
  unfold activateOf
  cases alook name s.activate <;> exact ⟨placid_refl s, fun h => by cases h⟩
theorem serene_interruptExtra {name : String} : Serene (interruptExtra name) := fun s => by
  unfold interruptExtra
  cases alook name s.extra with
  | none => exact ⟨placid_refl s, fun h => by cases h⟩
  | some p => exact serene_interrupt s

macro "serene" : tactic => `(tactic| repeat' with_reducible first
  | assumption
  | exact serene_pure | exact serene_throw (by decide) | exact serene_get | exact serene_newEvent | exact serene_succeed | exact serene_activateOf
  | exact serene_interruptExtra | exact serene_interrupt | exact serene_anyOf | exact serene_timeout
  | (refine serene_set fun _ => ?_; exact ⟨rfl, rfl, rfl⟩)
  | refine serene_ite ?_ ?_
  | refine serene_bind ?_ fun _ => ?_)

theorem serene_activateProc {e : Ev} : Serene (activateProc e) := by
  rcases activateProc_cases e with hp | hp <;> rw [hp]
  · exact serene_pure
  · intro s
    dsimp only
    split
    · exact ⟨placid_refl s, fun h => by cases h⟩
    · exact serene_succeed s
theorem serene_print {e : Ev} : Serene (printEvent e) := by
  rcases printEvent_cases e with ⟨_, hp⟩ | ⟨_, hp⟩ <;> rw [hp] <;> exact fun s => ⟨placid_same rfl rfl rfl, fun h => by cases h⟩
theorem serene_envInteraction : Serene envInteraction := fun s => by
  unfold envInteraction
  have h0 : Serene (SimM.set (fun s => { s with w := { s.w with interaction := [] } })) := serene_set fun _ => ⟨rfl, rfl, rfl⟩
  cases s.w.env with
  | none => exact ⟨placid_refl s, fun h => by cases h⟩
  | some env =>
    dsimp only
    split
    · exact serene_bind (serene_succeed (ev := s.envActivate)) (fun _ => h0) s
    · exact h0 s
theorem serene_renew {name : String} : Serene (renewActivate name) := by unfold renewActivate; serene
theorem serene_envNext {pro : ℕ} : Serene (envNext pro) := by unfold envNext; serene
theorem serene_notify (x : PItem) : Serene (notify x) := by
  cases x with
  | procedural => exact serene_throw (by decide)
  | gen name i d =>
    refine serene_bind serene_activateOf fun a => serene_bind serene_get fun busy => serene_ite (serene_bind serene_get fun old => ?_) (by serene)
    split <;> serene
theorem serene_notifyAll : ∀ l : List PItem, Serene (notifyAll l)
  | [] => serene_pure
  | x :: r => serene_bind (serene_notify x) fun _ => serene_notifyAll r
theorem serene_setStarted {l : Sim → List PItem} : Serene (SimM.set (fun s => s.setStarted (l s))) := serene_set fun s => by
  unfold Sim.setStarted
  cases s.started <;> exact ⟨rfl, rfl, rfl⟩
theorem serene_procsReturned {v : SVal} : Serene (procsReturned v) := fun s => by
  unfold procsReturned
  split
  · exact ⟨placid_same rfl rfl rfl, fun h => by cases h⟩
  · exact ⟨placid_refl s, fun h => by cases h⟩
theorem serene_startAutomatic {name : String} {i : ℕ} {d : Desc} : Serene (startAutomatic name i d) := by
  unfold startAutomatic
  refine serene_bind serene_setStarted fun _ => ?_
  refine serene_bind serene_activateOf fun a => serene_bind serene_get fun busy => serene_ite (serene_bind serene_get fun old => ?_) (by serene)
  split <;> serene
theorem serene_automatic {name : String} : Serene (automatic name) := fun s => by
  unfold automatic
  split
  · exact ⟨placid_refl s, fun h => by cases h⟩
  · split
    · exact ⟨placid_refl s, fun h => by cases h⟩
    · have h := serene_startAutomatic (name := name) (i := s.w.nextId) (d := by assumption) { s with w := { s.w with nextId := s.w.nextId + 1 } }
      exact ⟨placid_trans (b := { s with w := { s.w with nextId := s.w.nextId + 1 } }) (placid_same rfl rfl rfl) h.1, h.2⟩
theorem serene_automaticAll : ∀ l : List String, Serene (automaticAll l)
  | [] => serene_pure
  | _ :: r => serene_bind serene_automatic fun _ => serene_automaticAll r

/-! ## Processes -/

/-- The generator of a process does not raise `err`. -/
def PtMute (err : PyErr) : Pt → Prop
  | .localNew _ g => ∀ w, SoundM err w → (g w).Calm err (SoundM err) (fun _ _ => True)
  | .localWait _ _ k => ∀ w, SoundM err w → (k w).Calm err (SoundM err) (fun _ _ => True)
  | .envWait _ k => ∀ w, (k w).Calm err (fun _ => True) (fun _ _ => True)
  | _ => True

/-- No generator raises `err`. -/
structure Muffled (err : PyErr) (C : Cfg) (w0 : Mach) (s : Sim) : Prop where
  sound : SoundM err w0
  abides : Abides (Practice C) w0 s
  points : ∀ p pt, s.points p = some pt → PtMute err pt

theorem muffled_sound (h : Muffled err C w0 s) : SoundM err s.w := sound_practice h.sound h.abides.mach

/-- The code neither raises a simpy.Interrupt nor makes an event fail with one nor starts a process that might. -/
def Hushes (C : Cfg) (m : SimM A) (Q : A → Prop) : Prop :=
  ∀ w0 s, Muffled .interrupt C w0 s → Muffled .interrupt C w0 (m s).1 ∧ Placid s (m s).1 ∧ (m s).2 ≠ .error .interrupt ∧ ∀ a, (m s).2 = .ok a → Q a

variable {Q : A → Prop} {Q' : B → Prop}

theorem hushes_bind {m : SimM A} {f : A → SimM B} (hm : Hushes C m Q) (hf : ∀ a, Q a → Hushes C (f a) Q') : Hushes C (m >>= f) Q' := by
  intro w0 s h
  obtain ⟨h1, h2, h3, h4⟩ := hm w0 s h
  show Muffled .interrupt C w0 (SimM.bind m f s).1 ∧ Placid s (SimM.bind m f s).1 ∧ (SimM.bind m f s).2 ≠ _ ∧ ∀ a, (SimM.bind m f s).2 = .ok a → Q' a
  unfold SimM.bind
  rcases hr : m s with ⟨s1, e | a⟩
  · rw [hr] at h1 h2 h3
    exact ⟨h1, h2, fun h' => h3 (by cases h'; rfl), fun _ h => by cases h⟩
  · rw [hr] at h1 h2 h4
    obtain ⟨a1, a2, a3, a4⟩ := hf a (h4 a rfl) w0 s1 h1
    exact ⟨a1, placid_trans h2 a2, a3, a4⟩

theorem muffled_swerve (h : Muffled err C w0 s) (hs : Swerves (Practice C) s s') : Muffled err C w0 s' :=
  ⟨h.sound, abides_swerve (atoms_practice C).regime h.abides hs, fun p pt hp => h.points p pt (hs.points ▸ hp)⟩

theorem hushes_still {m : SimM A} (h1 : Swerving (Practice C) m) (h2 : Serene m) : Hushes C m (fun _ => True) :=
  fun _ s h => ⟨muffled_swerve h (h1 s), (h2 s).1, (h2 s).2, fun _ _ => trivial⟩
theorem hushes_then {m : SimM A} {f : A → SimM B} (h1 : Regime C (Practice C) → Swerving (Practice C) m) (h2 : Serene m) (hf : ∀ a, Hushes C (f a) Q') : Hushes C (m >>= f) Q' :=
  hushes_bind (hushes_still (h1 (atoms_practice C).regime) h2) fun a _ => hf a
theorem hushes_pure {a : A} (h : Q a) : Hushes C (pure a) Q := fun _ s hs => ⟨hs, placid_refl s, (fun h => by cases h), fun _ h' => by cases h'; exact h⟩
theorem hushes_throw {e : PyErr} (h : e ≠ .interrupt) : Hushes C (SimM.throw e) Q := fun _ s hs => ⟨hs, placid_refl s, fun h' => h (by cases h'; rfl), fun _ h' => by cases h'⟩

/-- When a process waits again. -/
def ResMute (err : PyErr) : Res → Prop
  | .wait _ pt => PtMute err pt
  | .done _ => True

theorem hushes_process {pt : Pt} (h : PtMute .interrupt pt) (hi : PtIn (Practice C) pt) : Hushes C (process pt) (fun _ => True) := by
  intro w0 s hs
  refine ⟨⟨hs.sound, (obeys_process hi w0 s hs.abides).1, fun q pt' hq => ?_⟩, ?_, (fun h => by cases h), fun _ _ => trivial⟩
  · have hq : fset s.points s.next (some pt) q = some pt' := hq
    by_cases he : q = s.next
    · subst he
      rw [fset_same] at hq
      cases hq
      exact h
    · rw [fset_other _ _ he] at hq
      exact hs.points q pt' hq
  · exact placid_trans (placid_trans (placid_alloc (E := ⟨Option.none, false, some []⟩) (fun h => by cases h)) (placid_alloc (E := ⟨some (.ok .nothing), false, some [.resume s.next]⟩) (fun h => by cases h)))
      (placid_same rfl rfl rfl)

theorem muffled_mach {w : Mach} (h : Muffled err C w0 s) (hw : Practice C s.w w) : Muffled err C w0 { s with w := w } :=
  ⟨h.sound, abides_mach (atoms_practice C).regime h.abides hw, h.points⟩

theorem hushes_localRun {name : String} {g : Mach → Out Mach YV Unit} (h : ∀ w, SoundM .interrupt w → (g w).Calm .interrupt (SoundM .interrupt) (fun _ _ => True)) (hi : ∀ w, (g w).Moves (Practice C) w) :
    Hushes C (SimM.get (·.w) >>= fun w => localRun name (g w)) (ResMute .interrupt) := by
  intro w0 s hs
  have h := h s.w (muffled_sound hs)
  have hi := hi s.w
  show Muffled .interrupt C w0 (localRun name (g s.w) s).1 ∧ Placid s (localRun name (g s.w) s).1 ∧ (localRun name (g s.w) s).2 ≠ _ ∧ ∀ a, (localRun name (g s.w) s).2 = .ok a → (ResMute .interrupt) a
  cases ho : g s.w with
  | yield w y k =>
    rw [ho] at h hi
    have hm := muffled_mach hs hi.1
    have hp : Placid s { s with w := w } := placid_same rfl rfl rfl
    cases y with
    | ev e =>
      obtain ⟨a1, a2, a3, a4⟩ := hushes_then (fun hR => swerving_timeout hR (d := e.time - round4 s.now)) serene_timeout (fun t => hushes_pure (Q := ResMute .interrupt) (a := .wait t (.localWait name e k)) h) w0 _ hm
      exact ⟨a1, placid_trans hp a2, a3, a4⟩
    | cont d => exact ⟨hm, hp, (fun h => by cases h), fun a ha => by cases ha; trivial⟩
    | procs => exact ⟨hm, hp, (fun h => by cases h), fun a ha => by cases ha; trivial⟩
    | nothing => exact ⟨hm, hp, (fun h => by cases h), fun a ha => by cases ha; trivial⟩
  | ret w a => rw [ho] at hi; exact ⟨muffled_mach hs hi, placid_same rfl rfl rfl, (fun h => by cases h), fun a ha => by cases ha; trivial⟩
  | raise w x => rw [ho] at h hi; exact ⟨muffled_mach hs hi, placid_same rfl rfl rfl, fun h' => h (by cases h'; rfl), fun a ha => by cases ha⟩

theorem ne_of_error {x : PyErr} (h : (.error x : Except PyErr SVal) ≠ .error .interrupt) : x ≠ .interrupt := fun h' => h (by rw [h'])

theorem hushes_localResume {name : String} {e : Ev} {k : Mach → Out Mach YV Unit} {x : Except PyErr SVal} (h : ∀ w, SoundM .interrupt w → (k w).Calm .interrupt (SoundM .interrupt) (fun _ _ => True)) (hi : ∀ w, (k w).Moves (Practice C) w) :
    Hushes C (localResume name e k x) (ResMute .interrupt) := by
  unfold localResume
  split
  · exact hushes_pure trivial
  · rename_i hx; exact hushes_throw fun h => hx (by rw [h])
  · exact hushes_then (fun hR => swerving_print hR) serene_print fun _ => hushes_then (fun hR => swerving_activateProc hR) serene_activateProc fun _ => hushes_then (fun hR => swerving_envInteraction hR) serene_envInteraction fun _ => hushes_localRun h hi

theorem hushes_procCycle (hC : Civil .interrupt C) {pt : Pt} (h : PtMute .interrupt pt) : Hushes C (procCycle C pt) (ResMute .interrupt) :=
  hushes_then (fun hR => swerving_get hR) serene_get fun _ => hushes_bind (hushes_process (fun w _ => calm_procedural hC _ w) fun w => (atoms_practice C).regime.procedural _ w) fun _ _ => hushes_pure h

theorem hushes_spins {k : ℕ} : Hushes C (procSpins k) (ResMute .interrupt) := hushes_then (fun hR => swerving_timeout hR) serene_timeout fun _ => hushes_pure trivial

theorem hushes_procLoop : Hushes C procLoop (ResMute .interrupt) := by
  unfold procLoop
  refine hushes_then (fun hR => swerving_get hR) serene_get fun l => ?_
  split
  · refine hushes_then (fun hR => swerving_setStarted hR) serene_setStarted fun _ => ?_
    exact hushes_then (fun hR => swerving_get hR) serene_get fun _ => hushes_then (fun hR => swerving_notifyAll hR _) (serene_notifyAll _) fun _ => hushes_spins
  · refine hushes_then (fun hR => swerving_get hR) serene_get fun _ => hushes_then (fun hR => swerving_get hR) serene_get fun _ => ?_
    split
    · exact hushes_spins
    · exact hushes_pure trivial

theorem hushes_start (hC : Civil .interrupt C) {name : String} {d : Desc} {g : ℕ → Pt} (hg : ∀ p, PtMute .interrupt (g p)) :
    Hushes C (process (.localNew name (d.run C)) >>= fun pro => pure (.wait pro (g pro))) (ResMute .interrupt) :=
  hushes_bind (hushes_process (fun w _ => mute_run hC d w) fun w => (atoms_practice C).regime.run d w) fun _ _ => hushes_pure (hg _)

theorem takeFor_error {n : String} {x : PyErr} : ∀ {l : List PItem}, takeFor n l = .error x → x ≠ .interrupt
  | [], h => by cases h
  | .procedural :: r, h => by
    unfold takeFor at h
    split at h
    · cases h; decide
    · cases ht : takeFor n r with
      | error y => rw [ht] at h; cases h; exact takeFor_error ht
      | ok o => rw [ht] at h; cases h
  | .gen m j d :: r, h => by
    unfold takeFor at h
    split at h
    · cases h
    · cases ht : takeFor n r with
      | error y => rw [ht] at h; cases h; exact takeFor_error ht
      | ok o => rw [ht] at h; cases h

theorem hushes_extraLoop (hC : Civil .interrupt C) {name : String} : Hushes C (extraLoop C name) (ResMute .interrupt) := by
  unfold extraLoop
  refine hushes_then (fun hR => swerving_get hR) serene_get fun l => ?_
  split
  · rename_i hx; exact hushes_throw (takeFor_error hx)
  · refine hushes_then (fun hR => by veerset hR) (serene_set fun _ => ⟨rfl, rfl, rfl⟩) fun _ => hushes_then (fun hR => swerving_activateOf hR) serene_activateOf fun _ => hushes_then (fun hR => swerving_get hR) serene_get fun _ => ?_
    split
    · exact hushes_then (fun hR => swerving_renew hR) serene_renew fun _ => hushes_pure trivial
    · exact hushes_pure trivial
  · refine hushes_then (fun hR => swerving_setStarted hR) serene_setStarted fun _ => hushes_then (fun hR => swerving_activateOf hR) serene_activateOf fun _ => hushes_then (fun hR => swerving_get hR) serene_get fun _ => ?_
    split
    · exact hushes_start hC fun _ => trivial
    · exact hushes_then (fun hR => swerving_succeed hR) serene_succeed fun _ => hushes_start hC fun _ => trivial

theorem hushes_extraAfterMain (hC : Civil .interrupt C) {name : String} {pro : ℕ} {x : Except PyErr SVal} : Hushes C (extraAfterMain C name pro x) (ResMute .interrupt) := by
  unfold extraAfterMain
  split
  · refine hushes_then (fun hR => swerving_get hR) serene_get fun _ => ?_
    split
    · exact hushes_extraLoop hC
    · exact hushes_then (fun hR => swerving_interrupt hR) serene_interrupt fun _ => hushes_extraLoop hC
  · rename_i hx; exact hushes_throw fun h => hx (by rw [h])
  · exact hushes_start hC (g := fun _ => .extraCont name) fun _ => trivial
  · exact hushes_extraLoop hC

theorem hushes_extraAfterCont (hC : Civil .interrupt C) {name : String} {x : Except PyErr SVal} : Hushes C (extraAfterCont C name x) (ResMute .interrupt) := by
  unfold extraAfterCont
  split
  · exact hushes_extraLoop hC
  · rename_i hx; exact hushes_throw fun h => hx (by rw [h])
  · exact hushes_extraLoop hC

theorem hushes_envIter {e : EnvEvent} {k : Mach → Out Mach EnvEvent Unit} (h : ∀ w, (k w).Calm .interrupt (fun _ => True) (fun _ _ => True)) : Hushes C (envIter e k) (ResMute .interrupt) :=
  hushes_bind (hushes_process (pt := .envProcNew _) trivial trivial) fun _ _ => hushes_then (fun hR => swerving_get hR) serene_get fun _ => hushes_then (fun hR => swerving_anyOf hR) serene_anyOf fun _ => hushes_pure h

theorem hushes_envStart : Hushes C (envStart C) (ResMute .interrupt) := fun w0 s hb => by
  cases ha : s.envArgs with
  | none =>
    have : envStart C s = (s, .error .type) := by simp only [envStart, ha]
    rw [this]; exact ⟨hb, placid_refl s, (fun h => by cases h), fun r hr => by cases hr⟩
  | some a =>
    have hk := calm_env (err := .interrupt) C.upper a.stimuli a.triggers a.times a.startTime s.w
    have hi := (atoms_practice C).regime.env C.upper a.stimuli a.triggers a.times a.startTime s.w
    rcases ho : envProcess (fun env (w : Mach) => { w with env := some env }) envOf C.upper a.stimuli a.triggers a.times a.startTime s.w with ⟨w, e, k⟩ | ⟨w, r⟩ | ⟨w, x⟩
    · rw [ho] at hk hi
      have : envStart C s = envIter e k { s with w := w } := by simp only [envStart, ha, ho]
      rw [this]
      obtain ⟨a1, a2, a3⟩ := hushes_envIter (C := C) (e := e) (fun w => hk w trivial) _ _ (muffled_mach hb hi.1)
      exact ⟨a1, placid_trans (b := { s with w := w }) (placid_same rfl rfl rfl) a2, a3⟩
    · rw [ho] at hi
      have : envStart C s = (SimM.throw .runtime : SimM Res) { s with w := w } := by simp only [envStart, ha, ho]; rfl
      rw [this]; exact ⟨muffled_mach hb hi, placid_same rfl rfl rfl, (fun h => by cases h), fun r hr => by cases hr⟩
    · rw [ho] at hk hi
      have : envStart C s = (SimM.throw x : SimM Res) { s with w := w } := by simp only [envStart, ha, ho]; rfl
      rw [this]; exact ⟨muffled_mach hb hi, placid_same rfl rfl rfl, fun h => hk (by cases h; rfl), fun r hr => by cases hr⟩

theorem hushes_envAdvance {k : Mach → Out Mach EnvEvent Unit} (h : ∀ w, (k w).Calm .interrupt (fun _ => True) (fun _ _ => True)) (hi : ∀ w, (k w).Moves (Practice C) w) : Hushes C (envAdvance k) (ResMute .interrupt) := fun w0 s hb => by
  have hk := h s.w
  have hi := hi s.w
  unfold envAdvance
  split
  · rename_i w _ ho; rw [ho] at hi; exact ⟨muffled_mach hb hi, placid_same rfl rfl rfl, (fun h => by cases h), fun r hr => by cases hr; trivial⟩
  · rename_i w x ho; rw [ho] at hk hi; exact ⟨muffled_mach hb hi, placid_same rfl rfl rfl, fun h => hk (by cases h; rfl), fun r hr => by cases hr⟩
  · rename_i w e k' ho
    rw [ho] at hk hi
    obtain ⟨a1, a2, a3⟩ := hushes_then (fun hR => swerving_automaticAll hR (w.bufs.map Prod.fst)) (serene_automaticAll _) (fun _ => hushes_envIter (C := C) (e := e) (fun w => hk w trivial)) _ _ (muffled_mach hb hi.1)
    exact ⟨a1, placid_trans (b := { s with w := w }) (placid_same rfl rfl rfl) a2, a3⟩

theorem timeout_error {d : ℚ} {x : PyErr} (h : timeout d s = (s', .error x)) : x ≠ .interrupt := by
  have := (serene_timeout (d := d) s).2
  rw [h] at this
  exact fun h => this (by rw [h])

theorem hushes_envProcStart {e : Ev} : Hushes C (envProcStart e) (ResMute .interrupt) := fun w0 s hb => by
  unfold envProcStart
  have h1 := swerving_timeout (atoms_practice C).regime (d := e.time - s.now) s
  have h2 := serene_timeout (d := e.time - s.now) s
  split
  · rename_i s1 t h
    rw [h] at h1 h2
    exact ⟨muffled_swerve hb h1, h2.1, (fun h => by cases h), fun r hr => by cases hr; trivial⟩
  · rename_i s1 x h
    rw [h] at h1 h2
    obtain ⟨a1, a2, a3⟩ := hushes_then (Q' := (ResMute .interrupt)) (f := fun _ => SimM.throw x) (fun hR => swerving_activateProc hR (e := e)) serene_activateProc (fun _ => hushes_throw (timeout_error h)) _ _ (muffled_swerve hb h1)
    exact ⟨a1, placid_trans h2.1 a2, a3⟩

theorem hushes_envProcResume {e : Ev} {x : Except PyErr SVal} : Hushes C (envProcResume e x) (ResMute .interrupt) := by
  unfold envProcResume
  split
  · exact hushes_then (fun hR => swerving_activateProc hR) serene_activateProc fun _ => hushes_pure trivial
  · rename_i hx; exact hushes_then (fun hR => swerving_activateProc hR) serene_activateProc fun _ => hushes_throw fun h => hx (by rw [h])
  · exact hushes_then (fun hR => swerving_print hR) serene_print fun _ => hushes_then (fun hR => swerving_activateProc hR) serene_activateProc fun _ => hushes_pure trivial

/-- Where an interruption is caught. -/
def Pt.catches : Pt → Bool
  | .extraMain _ _ | .extraCont _ | .localWait _ _ _ | .envProc _ => true
  | _ => false

theorem hushes_code (hC : Civil .interrupt C) {pt : Pt} {x : Except PyErr SVal} (hp : PtMute .interrupt pt) (hi : PtIn (Practice C) pt) (hx : x ≠ .error .interrupt ∨ pt.catches = true) : Hushes C (code C pt x) (ResMute .interrupt) := by
  unfold code
  split
  · exact hushes_procCycle hC trivial
  · exact hushes_then (fun hR => swerving_procsReturned hR) serene_procsReturned fun _ => hushes_procLoop
  · exact hushes_spins
  · split
    · exact hushes_procCycle hC trivial
    · exact hushes_spins
  · exact hushes_then (fun hR => swerving_procsReturned hR) serene_procsReturned fun _ => hushes_then (fun hR => swerving_newEvent hR) serene_newEvent fun _ => hushes_then (fun hR => by veerset hR) (serene_set fun _ => ⟨rfl, rfl, rfl⟩) fun _ => hushes_procLoop
  · exact hushes_extraLoop hC
  · exact hushes_then (fun hR => swerving_renew hR) serene_renew fun _ => hushes_extraLoop hC
  · exact hushes_extraAfterMain hC
  · exact hushes_extraAfterCont hC
  · exact hushes_localRun hp hi
  · exact hushes_localResume hp hi
  · exact hushes_envStart
  · exact hushes_then (fun hR => swerving_envNext hR) serene_envNext fun _ => hushes_envAdvance hp hi
  · exact hushes_envProcStart
  · exact hushes_envProcResume
  · rcases hx with hx | hx
    · exact hushes_throw fun h => hx (by rw [h])
    · exfalso
      cases pt <;> simp_all [Pt.catches]

/-! ## Steps -/

theorem muffled_same (h : Muffled err C w0 s) (h1 : s'.w = s.w) (h2 : s'.points = s.points) : Muffled err C w0 s' :=
  muffled_swerve h (swerves_same (atoms_practice C).regime h1 h2)

theorem muffled_waits {ev : ℕ} {pt : Pt} (h : Muffled err C w0 s) (hp : PtMute err pt) (ha : Abides (Practice C) w0 (s.waits p ev pt)) : Muffled err C w0 (s.waits p ev pt) := by
  refine ⟨h.sound, ha, fun q pt' hq => ?_⟩
  have hq : fset s.points p (some pt) q = some pt' := by
    rw [← hq]
    exact congrFun (addCallback_w ({ s with points := fset s.points p (some pt), target := fset s.target p ev } : Sim) ev (.resume p)).2.symm q
  by_cases he : q = p
  · subst he
    rw [fset_same] at hq
    cases hq
    exact hp
  · rw [fset_other _ _ he] at hq
    exact h.points q pt' hq

theorem muffled_ends {v : Except PyErr SVal} (h : Muffled err C w0 s) : Muffled err C w0 (s.ends p v) := by
  refine ⟨h.sound, abides_ends h.abides, fun q pt' hq => ?_⟩
  have hq : fset s.points p Option.none q = some pt' := hq
  by_cases he : q = p
  · subst he
    rw [fset_same] at hq
    cases hq
  · rw [fset_other _ _ he] at hq
    exact h.points q pt' hq

theorem placid_waits {ev : ℕ} {pt : Pt} : Placid s (s.waits p ev pt) :=
  placid_trans (b := { s with points := fset s.points p (some pt), target := fset s.target p ev }) (placid_same rfl rfl rfl) placid_addCallback
theorem placid_ends {v : Except PyErr SVal} (h : v ≠ .error .interrupt) : Placid s (s.ends p v) :=
  placid_trans (b := { s with points := fset s.points p Option.none }) (placid_same rfl rfl rfl) (placid_trigger h)

theorem muffled_resume (hC : Civil .interrupt C) {x : Except PyErr SVal} (h : Muffled .interrupt C w0 s) (hx : x ≠ .error .interrupt ∨ ∀ pt, s.points p = some pt → pt.catches = true) :
    Muffled .interrupt C w0 (s.resume C p x) ∧ Placid s (s.resume C p x) := by
  cases hp : s.points p with
  | none =>
    have : s.resume C p x = s := by unfold Sim.resume; rw [hp]
    rw [this]; exact ⟨h, placid_refl s⟩
  | some pt =>
    have ha := abides_resume (p := p) (x := x) (atoms_practice C).regime h.abides
    rw [resume_eq C hp] at ha ⊢
    obtain ⟨h3, h4, h5, h6⟩ := hushes_code hC (h.points p pt hp) (h.abides.points p pt hp) (hx.imp_right fun hx => hx pt hp) w0 s h
    rcases hcode : code C pt x s with ⟨s1, e | r⟩
    · rw [hcode] at h3 h4 h5
      exact ⟨muffled_ends h3, placid_trans h4 (placid_ends fun h => h5 (by cases h; rfl))⟩
    · rw [hcode] at h3 h4 h6 ha
      have h6 := h6 r rfl
      cases r with
      | wait ev pt' => exact ⟨muffled_waits h3 h6 ha, placid_trans h4 placid_waits⟩
      | done v => exact ⟨muffled_ends h3, placid_trans h4 (placid_ends fun h => by cases h)⟩

theorem muffled_callback (hC : Civil .interrupt C) {ev : ℕ} {v : Except PyErr SVal} (hv : v ≠ .error .interrupt) {cb : Callback} (h : Muffled .interrupt C w0 s) :
    Muffled .interrupt C w0 (callback C ev v s cb) ∧ Placid s (callback C ev v s cb) := by
  cases cb with
  | resume p =>
    rcases v with x | v
    · obtain ⟨a, b⟩ := muffled_resume (s := s.defuse ev) (p := p) hC (muffled_same h rfl rfl) (.inl hv)
      exact ⟨a, placid_trans placid_defuse b⟩
    · exact muffled_resume hC h (.inl hv)
  | interrupt p =>
    simp only [callback]
    split
    · exact ⟨h, placid_refl s⟩
    · obtain ⟨a, b⟩ := muffled_resume (s := s.dropCallback (s.target p) (.resume p)) (p := p) hC (muffled_same h rfl rfl) (.inl hv)
      exact ⟨a, placid_trans (placid_drop fun _ h => by cases h) b⟩
  | check d =>
    simp only [callback]
    split
    · exact ⟨h, placid_refl s⟩
    · rcases v with x | v
      · exact ⟨muffled_same h rfl rfl, placid_trans placid_defuse (placid_trigger hv)⟩
      · exact ⟨muffled_same h rfl rfl, placid_trigger fun h => by cases h⟩
  | build d x y => exact ⟨muffled_same h rfl rfl, placid_trans (placid_drop fun _ h => by cases h) (placid_drop fun _ h => by cases h)⟩
  | stop => exact ⟨h, placid_refl s⟩

theorem muffled_callbacks (hC : Civil .interrupt C) {ev : ℕ} {v : Except PyErr SVal} (hv : v ≠ .error .interrupt) : ∀ (l : List Callback) {s : Sim}, Muffled .interrupt C w0 s →
    Muffled .interrupt C w0 (l.foldl (callback C ev v) s) ∧ Placid s (l.foldl (callback C ev v) s)
  | [], s, h => ⟨h, placid_refl s⟩
  | cb :: l, s, h => by
    obtain ⟨a, b⟩ := muffled_callback hC hv (ev := ev) (cb := cb) h
    obtain ⟨a', b'⟩ := muffled_callbacks hC hv l (ev := ev) a
    exact ⟨a', placid_trans b b'⟩

/-- Events that failed with a simpy.Interrupt are interruptions or satisfy `P`, and then they are the processes of modules. -/
def Accounted (P : ℕ → Prop) (s : Sim) : Prop := ∀ ev, Hit s ev → Marked s ev ∨ (P ev ∧ ∃ n, (n, ev) ∈ s.extra)

theorem accounted_placid {P P' : ℕ → Prop} (h : Accounted P s) (hp : Placid s s') (hP : ∀ ev, P ev → P' ev) : Accounted P' s' := fun ev he => by
  rcases hp.evs ev he with ⟨h1, h2⟩ | ⟨-, h2⟩
  · rcases h ev h1 with h3 | ⟨h3, n, h4⟩
    · exact .inl (h2 h3)
    · exact .inr ⟨hP ev h3, n, hp.extra _ h4⟩
  · exact .inl h2

/-- What a step does: no event fails with a simpy.Interrupt, or the process of a module does that is interrupted when it has been called. -/
theorem muffled_step {P : ℕ → Prop} (hC : Civil .interrupt C) (h : Ready (fun _ => 0) (fun _ => False) s) (hf : Fine C.ruleFiring s) (ha : Awake (fun _ => False) s) (hfm : Firm True s) (hm : Muffled .interrupt C w0 s) (ht : Accounted P s) (hl : Stepped.leads (s.step C) s') :
    Muffled .interrupt C w0 s' ∧ (Placid s s' ∨ ∃ p n s1, Interrupts s p ∧ CalledUp s p n ∧ (n, p) ∈ s.extra ∧ Placid s s1 ∧ s' = s1.ends p (.error .interrupt)) := by
  have htk : ∀ en q, Muffled .interrupt C w0 (s.taken en q) := fun en q => muffled_same hm rfl rfl
  obtain ⟨en, q, hq, hs'⟩ : ∃ en q, s.queue = en :: q ∧ (s' = s.taken en q ∨ s' = s.called C en q) := by
    rcases step_cases (C := C) (s := s) rfl with ⟨h0, _⟩ | ⟨en, q, hq, ⟨_, h0⟩ | ⟨hst, h0 | ⟨x, h0⟩⟩⟩ <;> rw [h0] at hl <;> rcases hl with hs | hs | ⟨_, hs⟩ <;> cases hs
    · exact ⟨en, q, hq, .inl rfl⟩
    · exact ⟨en, q, hq, .inr rfl⟩
    · exact ⟨en, q, hq, .inr rfl⟩
  rcases hs' with rfl | rfl
  · exact ⟨htk en q, .inl placid_taken⟩
  by_cases hv : (s.events en.ev).value.getD (.ok .nothing) = .error .interrupt
  swap
  · obtain ⟨a, b⟩ := muffled_callbacks hC hv (s.cbs en.ev) (ev := en.ev) (htk en q)
    exact ⟨a, .inl (placid_trans placid_taken b)⟩
  have hhit : Hit s en.ev := by
    unfold Hit
    cases hx : (s.events en.ev).value with
    | none => rw [hx] at hv; cases hv
    | some v => rw [hx] at hv; exact congrArg some hv
  have hnil : s.cbs en.ev = [] → Muffled .interrupt C w0 (s.called C en q) ∧ (Placid s (s.called C en q) ∨ ∃ p n s1, Interrupts s p ∧ CalledUp s p n ∧ (n, p) ∈ s.extra ∧ Placid s s1 ∧ s.called C en q = s1.ends p (.error .interrupt)) := fun hc => by
    have : s.called C en q = s.taken en q := by unfold Sim.called; rw [hc]; rfl
    rw [this]
    exact ⟨htk en q, .inl placid_taken⟩
  rcases ht en.ev hhit with ⟨-, hc | ⟨r, hr⟩⟩ | ⟨-, n, hn⟩
  · exact hnil (by unfold Sim.cbs; rw [hc]; rfl)
  · obtain ⟨hcb, -, -, -⟩ := h.poised.intr en.ev r hr
    have hi : Interrupts s r := ⟨en, q, hq, [.interrupt r], by
      unfold Sim.cbs at hcb
      cases hx : (s.events en.ev).callbacks with
      | none => rw [hx] at hcb; cases hcb
      | some l => rw [hx] at hcb; exact congrArg some hcb, .head _⟩
    have hcalled : s.called C en q = callback C en.ev (.error .interrupt) (s.taken en q) (.interrupt r) := by
      unfold Sim.called; rw [hcb, hv]; rfl
    rw [hcalled]
    simp only [callback]
    split
    · exact ⟨htk en q, .inl placid_taken⟩
    · have hd : Muffled .interrupt C w0 ((s.taken en q).dropCallback ((s.taken en q).target r) (.resume r)) := muffled_same hm rfl rfl
      have hpd : Placid s ((s.taken en q).dropCallback ((s.taken en q).target r) (.resume r)) := placid_trans placid_taken (placid_drop fun _ h => by cases h)
      by_cases hx : ∀ pt, s.points r = some pt → pt.catches = true
      · obtain ⟨a, b⟩ := muffled_resume (x := .error .interrupt) (p := r) hC hd (.inr hx)
        exact ⟨a, .inl (placid_trans hpd b)⟩
      · have hpt : s.points r ≠ Option.none := fun h0 => hx fun pt hp => by rw [h0] at hp; cases hp
        obtain ⟨pt, hpt'⟩ := Option.ne_none_iff_exists'.1 hpt
        obtain ⟨pt1, -, hpt1, -, -, -, hst, hnew, hsoft, -⟩ := struck_step C h hf ha hi hpt hl
        obtain rfl : pt1 = pt := by rw [hpt'] at hpt1; cases hpt1; rfl
        have hcat : pt1.catches ≠ true := fun hc => hx fun pt hp => by rw [hpt'] at hp; cases hp; exact hc
        have hidle : ∃ n, pt1 = .extraIdle n := by
          cases pt1 with
          | extraIdle n => exact ⟨n, rfl⟩
          | extraMain | extraCont | localWait | envProc => exact absurd rfl hcat
          | procNew | extraNew | localNew | envNew | envProcNew => cases hnew
          | procFirst | procIdle | procSpin | procAgain | envWait => rcases hsoft with h | h <;> cases h
        obtain ⟨n, rfl⟩ := hidle
        have hres : ((s.taken en q).dropCallback ((s.taken en q).target r) (.resume r)).resume C r (.error .interrupt) = ((s.taken en q).dropCallback ((s.taken en q).target r) (.resume r)).ends r (.error .interrupt) := by
          rw [resume_eq C (s := (s.taken en q).dropCallback ((s.taken en q).target r) (.resume r)) (pt := .extraIdle n) hpt']; rfl
        rw [hres]
        exact ⟨muffled_ends hd, .inr ⟨r, n, _, hi, ⟨hpt', (h.poised.idle r n hpt' id).2 hst⟩, alook_mem (h.poised.kind r _ n hpt' id rfl), hpd, rfl⟩⟩
  · exact hnil (firm_cbs hfm hn)

theorem accounted_ends {P P' : ℕ → Prop} {n : String} (h : Accounted P s) (hP : ∀ ev, P ev → P' ev) (hp : P' p) (hn : (n, p) ∈ s.extra) : Accounted P' (s.ends p (.error .interrupt)) := fun ev he => by
  by_cases hev : ev = p
  · subst hev
    exact .inr ⟨hp, n, hn⟩
  · have hsame : (s.ends p (.error .interrupt)).events ev = s.events ev := fset_other _ _ hev
    unfold Hit at he
    rw [hsame] at he
    rcases h ev he with h1 | ⟨h1, h2⟩
    · refine .inl ?_
      unfold Marked Sim.cbs at h1 ⊢
      rw [hsame]; exact h1
    · exact .inr ⟨hP ev h1, h2⟩

/-! ## Runs -/

variable {w : Mach} {args : Option EnvArgs} {t : ℚ}

theorem hushes_initExtra : ∀ l : List String, Hushes C (initExtra l) (fun _ => True)
  | [] => hushes_pure trivial
  | n :: r => by
    unfold initExtra
    split
    · exact hushes_initExtra r
    · refine hushes_bind (hushes_process (pt := .extraNew n) trivial trivial) fun p _ => hushes_then (fun hR => swerving_newEvent hR) serene_newEvent fun a => hushes_then (fun hR => by veerset hR) ?_ fun _ => hushes_initExtra r
      exact fun s => ⟨⟨le_rfl, fun x hx => List.mem_append_left _ hx, fun ev he => .inl ⟨he, id⟩⟩, fun h => by cases h⟩

theorem muffled_init (hs : SoundM .interrupt w) : Muffled .interrupt C w (Sim.init w args t) ∧ ∀ P, Accounted P (Sim.init w args t) := by
  have h0 : Muffled .interrupt C w (Sim.blank w args t) := ⟨hs, ⟨(atoms_practice C).regime.refl w, fun q pt hq => by cases hq⟩, fun q pt hq => by cases hq⟩
  have hI : Hushes C (do
    let _ ← process .procNew
    initExtra (w.bufs.map Prod.fst)
    if w.env.isSome then do
      let _ ← process .envNew
      pure ()
    else pure () : SimM Unit) (fun _ => True) := by
    refine hushes_bind (hushes_process (pt := .procNew) trivial trivial) fun _ _ => hushes_bind (hushes_initExtra _) fun _ _ => ?_
    split
    · exact hushes_bind (hushes_process (pt := .envNew) trivial trivial) fun _ _ => hushes_pure trivial
    · exact hushes_pure trivial
  obtain ⟨h1, h2, -⟩ := hI w _ h0
  exact ⟨h1, fun P => accounted_placid (P := P) (fun ev he => by cases he) h2 fun _ h => h⟩

theorem muffled_setStop {q : ℚ} (h : Muffled .interrupt C w0 s) : Muffled .interrupt C w0 (s.setStop q).1 ∧ Placid s (s.setStop q).1 := by
  unfold Sim.setStop
  split
  · exact ⟨h, placid_refl s⟩
  · exact ⟨muffled_same h rfl rfl, placid_trans (placid_alloc (E := ⟨some (.ok .nothing), false, some [.stop]⟩) (fun h => by cases h)) placid_schedule⟩

theorem muffled_compile (h : Muffled .interrupt C w0 s) : Muffled .interrupt C w0 (compileAtEnd C s).1 ∧ Placid s (compileAtEnd C s).1 := by
  have h1 := (atoms_practice C).regime.compile s.w
  unfold compileAtEnd
  split
  · rcases hci : compileIn C s.w with ⟨w', x | o⟩ <;> rw [hci] at h1 <;> exact ⟨muffled_mach h h1, placid_same rfl rfl rfl⟩
  · exact ⟨h, placid_refl s⟩

theorem wasStruck_goesOn (h : WasStruck C w args t s p) (hg : GoesOn C s s') : WasStruck C w args t s' p := by
  obtain ⟨s0, s1, n, h1, h2, h3, h4, h5⟩ := h
  exact ⟨s0, s1, n, h1, h2, h3, h4, goesOn_trans h5 hg⟩

/-- At any time only processes that have been interrupted, and interruptions, have failed with a simpy.Interrupt. -/
theorem accounted_reachable (hw : (w.bufs.map Prod.fst).Nodup) (hC : Civil .interrupt C) (hs : SoundM .interrupt w) (h : Reachable C w args t s) :
    Muffled .interrupt C w s ∧ Accounted (WasStruck C w args t s) s := by
  have key : ∀ {s s' : Sim}, Reachable C w args t s → Stepped.leads (s.step C) s' → Muffled .interrupt C w s ∧ Accounted (WasStruck C w args t s) s → Muffled .interrupt C w s' ∧ Accounted (WasStruck C w args t s') s' := fun {s s'} hr hl ih => by
    obtain ⟨h1, h2⟩ := muffled_step hC (ready_reachable hw hr) (fine_reachable hr) (awake_reachable hr) (firm_reachable hr).1 ih.1 ih.2 hl
    refine ⟨h1, ?_⟩
    have hg := (GoesOn.refl s).step hl
    rcases h2 with h2 | ⟨p, n, s1, h2, h3, h4, h5, rfl⟩
    · exact accounted_placid ih.2 h2 fun _ hx => wasStruck_goesOn hx hg
    · exact accounted_ends (n := n) (accounted_placid ih.2 h5 fun _ hx => hx) (fun _ hx => wasStruck_goesOn hx hg) ⟨s, _, n, hr, h2, h3, hl, .refl _⟩ (h5.extra _ h4)
  induction h with
  | init => exact ⟨(muffled_init hs).1, (muffled_init (C := C) hs).2 _⟩
  | @stop s1 s2 q r hr hs ih =>
    have : s2 = (s1.setStop q).1 := by rw [hs]
    subst this
    obtain ⟨a, b⟩ := muffled_setStop (q := q) ih.1
    exact ⟨a, accounted_placid ih.2 b fun _ hx => wasStruck_goesOn hx ((GoesOn.refl _).stop q)⟩
  | step hr hs ih => exact key hr (.inl hs) ih
  | stopped hr hs ih => exact key hr (.inr (.inl hs)) ih
  | raised hr hs ih => exact key hr (.inr (.inr ⟨_, hs⟩)) ih
  | @compile s1 s2 r hr hs ih =>
    have : s2 = (compileAtEnd C s1).1 := by rw [hs]
    subst this
    obtain ⟨a, b⟩ := muffled_compile ih.1
    exact ⟨a, accounted_placid ih.2 b fun _ hx => wasStruck_goesOn hx (GoesOn.refl _).compile⟩

omit [Foreign err] in
theorem civil_of (h : NoneOfItsOwn err C w) : Civil err C ∧ SoundM err w :=
  ⟨⟨fun c b => ⟨h.exec c b⟩, fun k p q d => ⟨h.emma k p q d⟩⟩, fun n r hr => ⟨⟨h.lhs n r hr⟩, ⟨h.rhs n r hr⟩⟩⟩

/-- A process that fails with a simpy.Interrupt is interrupted. -/
theorem fails_struck (hw : (w.bufs.map Prod.fst).Nodup) (hn : NoneOfItsOwn .interrupt C w) (h : Reachable C w args t s) (hf : FailsIn C s s' p .interrupt) : Interrupts s p ∧ ∃ n, CalledUp s p n := by
  obtain ⟨hC, hs⟩ := civil_of hn
  obtain ⟨h1, h2⟩ := accounted_reachable hw hC hs h
  obtain ⟨hl, hp, -, hv⟩ := hf
  obtain ⟨pt, hpt⟩ := Option.ne_none_iff_exists'.1 hp
  have hfi := (fine_reachable h).1
  have hlt := points_lt hfi hpt
  have hnv : (s.events p).value = Option.none := hfi.live p (by rw [hpt]; rfl)
  have hno : ∀ {s1 : Sim}, Placid s s1 → ¬ Hit s1 p := fun hpl hh => by
    rcases hpl.evs p hh with ⟨a, -⟩ | ⟨a, -⟩
    · unfold Hit at a; rw [hnv] at a; cases a
    · omega
  rcases (muffled_step hC (ready_reachable hw h) (fine_reachable h) (awake_reachable h) (firm_reachable h).1 h1 h2 hl).2 with h3 | ⟨r, n, s1, h3, h4, h5, h6, rfl⟩
  · exact absurd hv (hno h3)
  · by_cases hr : p = r
    · subst hr; exact ⟨h3, n, h4⟩
    · have hsame : (s1.ends r (.error .interrupt)).events p = s1.events p := fset_other _ _ hr
      rw [hsame] at hv
      exact absurd hv (hno h6)

/-- A step that raises a simpy.Interrupt. -/
theorem raised_struck (hw : (w.bufs.map Prod.fst).Nodup) (hn : NoneOfItsOwn .interrupt C w) (h : Reachable C w args t s) (hr : s.step C = .raised s' .interrupt) : ∃ p, WasStruck C w args t s p := by
  obtain ⟨hC, hs⟩ := civil_of hn
  obtain ⟨h1, h2⟩ := accounted_reachable hw hC hs h
  have hfi := fine_reachable h
  have hl : Stepped.leads (s.step C) s' := .inr (.inr ⟨_, hr⟩)
  have hstep := (muffled_step hC (ready_reachable hw h) hfi (awake_reachable h) (firm_reachable h).1 h1 h2 hl).2
  obtain ⟨en, q, hq, hst, hsc, hv, hd⟩ : ∃ en q, s.queue = en :: q ∧ .stop ∉ s.cbs en.ev ∧ s' = s.called C en q ∧ (s.events en.ev).value = some (.error .interrupt) ∧ (s'.events en.ev).defused ≠ true := by
    rcases step_cases hr with ⟨h0, _⟩ | ⟨en, q, hq, ⟨_, h0⟩ | ⟨hst, h0 | ⟨x, h0⟩⟩⟩
    · cases h0
    · cases h0
    · cases h0
    · have hx : s' = s.called C en q := by cases h0; rfl
      refine ⟨en, q, hq, hst, hx, ?_⟩
      unfold Sim.step at hr
      rw [hq] at hr
      dsimp only at hr
      split at hr
      · cases hr
      · split at hr
        · rename_i x' hv
          split at hr
          · cases hr
          · rename_i hd
            injection hr with hr1 hr2
            subst hr2
            rw [hr1] at hd
            refine ⟨?_, hd⟩
            cases hx : (s.events en.ev).value with
            | none => rw [hx] at hv; cases hv
            | some v => rw [hx] at hv; exact congrArg some hv
        · cases hr
  rcases h2 en.ev hv with hm | ⟨hx, -⟩
  swap
  · exact ⟨_, hx⟩
  · exfalso
    have hen : en ∈ s.queue := by rw [hq]; exact .head _
    have hlt := hfi.1.known en hen
    have hv' : Hit s' en.ev := by
      rw [hsc]
      refine (fine_called C hfi hq hst).2.value en.ev _ ?_
      show ((s.taken en q).events en.ev).value = _
      unfold Sim.taken
      dsimp only
      rw [fset_same]; exact hv
    have hmark : ∀ {s1 : Sim}, Placid s s1 → Hit s1 en.ev → (s1.events en.ev).defused = true := fun hpl hh => by
      rcases hpl.evs _ hh with ⟨-, a⟩ | ⟨a, -⟩
      · exact (a hm).1
      · omega
    rcases hstep with h3 | ⟨r, n, s1, h3, h4, h5, h6, rfl⟩
    · exact hd (hmark h3 hv')
    · by_cases he : en.ev = r
      · have := hfi.1.live r (by rw [h4.1]; rfl)
        rw [← he, hv] at this; cases this
      · have hsame : (s1.ends r (.error .interrupt)).events en.ev = s1.events en.ev := fset_other _ _ he
        rw [hsame] at hd
        unfold Hit at hv'
        rw [hsame] at hv'
        exact hd (hmark h6 hv')

end Verif
