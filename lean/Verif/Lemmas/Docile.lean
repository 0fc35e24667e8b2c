import Verif.Lemmas.Placid
/-! # Where a RuntimeError of simpy comes from -/
namespace Verif
open Verif.Spec

variable {A B : Type} {C : Cfg} {s s' : Sim} {p : ℕ} {w0 : Mach} {E : Prop}

/-- The environment is not set where there is none. -/
def EnvLess (w w' : Mach) : Prop := w.env = Option.none → w'.env = Option.none

theorem quanta_envLess (C : Cfg) : Quanta C (fun _ _ => True) EnvLess where
  mint := mint_any C.P
  refl _ := id
  trans _ _ _ h1 h2 h := h2 (h1 h)
  upd w n f _ h := (upd_env w n f).trans h
  other _ _ _ _ _ _ _ _ h := h
  reg _ _ _ := id
  mems _ _ _ := id
  buf w n b st _ _ h := by unfold Mach.putBst; rw [upd_env]; exact h
  exec w n b c _ h := (upd_env w n _).trans h
  reward n t w h := by
    unfold rewardStep
    split
    · split <;> exact h
    · exact h
  compile w h := by
    unfold compileIn
    split
    · dsimp only
      split <;> exact h
    · exact h

/-- The event failed with a RuntimeError. -/
def Shaken (s : Sim) (ev : ℕ) : Prop := (s.events ev).value = some (.error .runtime)

/-- The process of a module has ended. -/
def Lapsed (s : Sim) : Prop := ∃ n q, (n, q) ∈ s.extra ∧ s.triggered q = true

/-- None of the entries is such a one until there has been another one such. -/
def Fronted (P B : Entry → Prop) : List Entry → Prop
  | [] => True
  | x :: r => ¬ P x ∧ (B x ∨ Fronted P B r)

theorem fronted_mono {P P' B B' : Entry → Prop} (h1 : ∀ x, P' x → P x) (h2 : ∀ x, B x → B' x) : ∀ {l : List Entry}, Fronted P B l → Fronted P' B' l
  | [], _ => trivial
  | x :: _, ⟨h, h'⟩ => ⟨fun hx => h (h1 x hx), h'.imp (h2 x) (fronted_mono h1 h2)⟩

theorem fronted_insert {P B : Entry → Prop} {e : Entry} (he : ¬ P e) : ∀ {l : List Entry}, Fronted P B l → Fronted P B (insertEntry e l)
  | [], _ => ⟨he, .inr trivial⟩
  | x :: r, h => by
    unfold insertEntry
    split
    · exact ⟨h.1, h.2.imp_right (fronted_insert he)⟩
    · exact ⟨he, .inr h⟩

theorem fronted_behind {P B : Entry → Prop} {e b : Entry} (hu : e.urgent = false) (ht : b.time ≤ e.time) (hB : B b) : ∀ {l : List Entry}, b ∈ l → l.Pairwise Entry.upTo → Fronted P B l → Fronted P B (insertEntry e l)
  | [], h, _, _ => by cases h
  | x :: r, hb, hs, h => by
    have hx : x.time ≤ b.time := by
      rcases List.mem_cons.1 hb with rfl | hb
      · exact le_rfl
      · exact upTo_le ((List.pairwise_cons.1 hs).1 b hb)
    have hbf : x.before e = true := by
      unfold Entry.before
      rw [hu]
      simp [hx.trans ht]
    unfold insertEntry
    rw [if_pos hbf]
    refine ⟨h.1, ?_⟩
    rcases List.mem_cons.1 hb with rfl | hb
    · exact .inl hB
    · exact h.2.imp_right fun h => fronted_behind hu ht hB hb (List.pairwise_cons.1 hs).2 h

/-- No further event fails with a RuntimeError, and the schedule grows. -/
structure Quell (s s' : Sim) : Prop where
  back : ∀ ev, Shaken s' ev → Shaken s ev
  now : s'.now = s.now
  kept : ∀ en ∈ s.queue, en ∈ s'.queue
  sorted : s.queue.Pairwise Entry.upTo → s'.queue.Pairwise Entry.upTo
  fronted : ∀ B, Fronted (fun en => Shaken s en.ev) B s.queue → Fronted (fun en => Shaken s' en.ev) B s'.queue

theorem quell_refl (s : Sim) : Quell s s := ⟨fun _ h => h, rfl, fun _ h => h, id, fun _ h => h⟩
theorem quell_trans {a b c : Sim} (h1 : Quell a b) (h2 : Quell b c) : Quell a c :=
  ⟨fun ev h => h1.back ev (h2.back ev h), h2.now.trans h1.now, fun en h => h2.kept en (h1.kept en h), fun h => h2.sorted (h1.sorted h), fun B h => h2.fronted B (h1.fronted B h)⟩
theorem quell_of (h : ∀ ev, Shaken s' ev → Shaken s ev) (hn : s'.now = s.now) (hq : s'.queue = s.queue) : Quell s s' :=
  ⟨h, hn, fun en he => hq ▸ he, fun hs => hq ▸ hs, fun B hf => by rw [hq]; exact fronted_mono (fun x => h x.ev) (fun _ h => h) hf⟩
theorem quell_same (h : s'.events = s.events) (hn : s'.now = s.now) (hq : s'.queue = s.queue) : Quell s s' :=
  quell_of (fun ev hx => by unfold Shaken at hx ⊢; rw [← h]; exact hx) hn hq
theorem quell_fset {ev : ℕ} {X : SEv} (h : X.value ≠ some (.error .runtime) ∨ X.value = (s.events ev).value) : Quell s { s with events := fset s.events ev X } := quell_of (fun x hx => by
  unfold Shaken at hx ⊢
  dsimp only at hx
  by_cases he : x = ev
  · subst he
    rw [fset_same] at hx
    rcases h with h | h
    · exact absurd hx h
    · rw [← h]; exact hx
  · rwa [fset_other _ _ he] at hx) rfl rfl
theorem quell_alloc {X : SEv} (h : X.value ≠ some (.error .runtime)) : Quell s (s.alloc X) := quell_of (fun x hx => by
  unfold Shaken at hx ⊢
  by_cases he : x = s.next
  · subst he; rw [events_alloc_new] at hx; exact absurd hx h
  · rwa [events_alloc_old he] at hx) rfl rfl
theorem quell_schedule {ev : ℕ} {u : Bool} {d : ℚ} (h : ¬ Shaken s ev) : Quell s (s.schedule ev u d) :=
  ⟨fun _ h => h, rfl, fun en he => (mem_insertEntry _ _ _).2 (.inr he), insertEntry_sorted _ _, fun _ hf => fronted_insert h hf⟩
theorem not_shaken_alloc {X : SEv} (h : X.value ≠ some (.error .runtime)) : ¬ Shaken (s.alloc X) s.next := fun hx => by
  unfold Shaken at hx; rw [events_alloc_new] at hx; exact h hx
theorem quell_timed {X : SEv} {u : Bool} {d : ℚ} (h : X.value ≠ some (.error .runtime)) : Quell s ((s.alloc X).schedule s.next u d) :=
  quell_trans (quell_alloc h) (quell_schedule (not_shaken_alloc h))
theorem quell_trigger {ev : ℕ} {v : Except PyErr SVal} (h : v ≠ .error .runtime) : Quell s (s.trigger ev v) :=
  quell_trans (quell_fset (X := { s.events ev with value := some v }) (.inl fun h' => h (Option.some.inj h'))) (quell_schedule fun hx => by
    unfold Shaken at hx
    dsimp only at hx
    rw [fset_same] at hx
    exact h (Option.some.inj hx))
theorem quell_addCallback {ev : ℕ} {c : Callback} : Quell s (s.addCallback ev c) := quell_fset (.inr rfl)
theorem quell_drop {ev : ℕ} {c : Callback} : Quell s (s.dropCallback ev c) := quell_fset (.inr rfl)
theorem quell_defuse {ev : ℕ} : Quell s (s.defuse ev) := quell_fset (.inr rfl)
theorem shaken_taken {en : Entry} {q : List Entry} {ev : ℕ} (h : Shaken (s.taken en q) ev) : Shaken s ev :=
  (quell_fset (s := s) (ev := en.ev) (X := { s.events en.ev with callbacks := Option.none }) (.inr rfl)).back ev h

/-! ## Code that starts no process -/

/-- Where there is no environment, the code raises a RuntimeError only because the process of a module has ended. -/
def Docile (m : SimM A) (s : Sim) : Prop := s.w.env = Option.none → (m s).1.w.env = Option.none ∧ Quell s (m s).1 ∧ ((m s).2 = .error .runtime → Lapsed (m s).1)

theorem docile_bind {m : SimM A} {f : A → SimM B} (hm : Docile m s) (hf : ∀ a s', m s = (s', .ok a) → Docile (f a) s') : Docile (m >>= f) s := by
  intro he
  show (SimM.bind m f s).1.w.env = _ ∧ Quell s (SimM.bind m f s).1 ∧ ((SimM.bind m f s).2 = _ → Lapsed (SimM.bind m f s).1)
  unfold SimM.bind
  have h1 := hm he
  rcases h : m s with ⟨s1, e | a⟩
  · rw [h] at h1
    exact ⟨h1.1, h1.2.1, fun h' => h1.2.2 (by cases h'; rfl)⟩
  · rw [h] at h1
    obtain ⟨a1, a2, a3⟩ := hf a s1 h h1.1
    exact ⟨a1, quell_trans h1.2.1 a2, a3⟩
theorem docile_pure {a : A} : Docile (pure a : SimM A) s := fun he => ⟨he, quell_refl s, fun h => by cases h⟩
theorem docile_throw {e : PyErr} (h : e ≠ .runtime) : Docile (SimM.throw e : SimM A) s := fun he => ⟨he, quell_refl s, fun h' => absurd (by cases h'; rfl) h⟩
theorem docile_get {f : Sim → A} : Docile (SimM.get f) s := fun he => ⟨he, quell_refl s, fun h => by cases h⟩
theorem docile_set {f : Sim → Sim} (h1 : (f s).events = s.events) (h2 : (f s).w.env = s.w.env) (h3 : (f s).now = s.now) (h4 : (f s).queue = s.queue) : Docile (SimM.set f) s := fun he => ⟨h2.trans he, quell_same h1 h3 h4, fun h => by cases h⟩
theorem docile_newEvent : Docile newEvent s := fun he => ⟨he, quell_alloc (fun h => by cases h), fun h => by cases h⟩
theorem docile_succeed {ev : ℕ} (h : s.triggered ev = false) : Docile (succeed ev) s := fun he => by
  unfold succeed
  rw [h]
  exact ⟨he, quell_trigger (fun h => by cases h), fun h => by cases h⟩
theorem docile_timeout {d : ℚ} : Docile (timeout d) s := fun he => by
  unfold timeout
  split
  · exact ⟨he, quell_refl s, fun h => by cases h⟩
  · exact ⟨he, quell_timed (fun h => by cases h), fun h => by cases h⟩
theorem docile_interrupt {r : ℕ} (h : s.triggered r = true → Lapsed s) : Docile (interruptProcess r) s := fun he => by
  unfold interruptProcess
  split
  · rename_i ht; exact ⟨he, quell_refl s, fun _ => h ht⟩
  · exact ⟨he, quell_timed (fun h => by cases h), fun h => by cases h⟩
theorem docile_activateOf {name : String} : Docile (activateOf name) s := fun he => by
  unfold activateOf
  cases alook name s.activate <;> exact ⟨he, quell_refl s, fun h => by cases h⟩
theorem docile_interruptExtra {name : String} : Docile (interruptExtra name) s := fun he => by
  unfold interruptExtra
  cases hx : alook name s.extra with
  | none => exact ⟨he, quell_refl s, fun h => by cases h⟩
  | some p => exact docile_interrupt (fun ht => ⟨name, p, alook_mem hx, ht⟩) he
theorem docile_activateProc {e : Ev} : Docile (activateProc e) s := by
  rcases activateProc_cases e with hp | hp <;> rw [hp]
  · exact docile_pure
  · intro he
    dsimp only
    split
    · exact ⟨he, quell_refl s, fun h => by cases h⟩
    · rename_i ht; exact docile_succeed (by simpa using ht) he
theorem docile_print {e : Ev} : Docile (printEvent e) s := by
  rcases printEvent_cases e with ⟨_, hp⟩ | ⟨_, hp⟩ <;> rw [hp] <;> exact fun he => ⟨he, quell_same rfl rfl rfl, fun h => by cases h⟩
theorem docile_envInteraction : Docile envInteraction s := fun he => by
  unfold envInteraction
  rw [he]
  exact ⟨he, quell_refl s, fun h => by cases h⟩
theorem docile_renew {name : String} : Docile (renewActivate name) s := by
  unfold renewActivate
  exact docile_bind docile_newEvent fun _ _ _ => docile_bind (docile_set rfl rfl rfl rfl) fun _ _ _ => docile_pure
theorem get_eq {f : Sim → A} {a : A} (h : SimM.get f s = (s', .ok a)) : s' = s ∧ a = f s := by cases h; exact ⟨rfl, rfl⟩
theorem docile_notify (x : PItem) : Docile (notify x) s := by
  cases x with
  | procedural => exact docile_throw (by decide)
  | gen name i d =>
    unfold notify
    refine docile_bind docile_activateOf fun a s1 _ => docile_bind docile_get fun busy s2 hb => ?_
    obtain ⟨rfl, rfl⟩ := get_eq hb
    split
    · refine docile_bind docile_get fun old s3 _ => ?_
      split
      · exact docile_pure
      · split
        · exact docile_pure
        · exact docile_bind (docile_set rfl rfl rfl rfl) fun _ _ _ => docile_interruptExtra
    · rename_i hn
      have hn : s2.triggered a = false := by simpa using hn
      split
      · refine docile_bind (docile_set rfl rfl rfl rfl) fun _ s3 h3 => ?_
        cases h3
        exact docile_succeed hn
      · exact docile_succeed hn
theorem docile_notifyAll : ∀ (l : List PItem) {s : Sim}, Docile (notifyAll l) s
  | [], _ => docile_pure
  | x :: r, _ => docile_bind (docile_notify x) fun _ _ _ => docile_notifyAll r
theorem docile_setStarted {l : Sim → List PItem} : Docile (SimM.set (fun s => s.setStarted (l s))) s := by
  refine docile_set ?_ ?_ ?_ ?_ <;> unfold Sim.setStarted <;> cases s.started <;> rfl
theorem docile_procsReturned {v : SVal} : Docile (procsReturned v) s := fun he => by
  unfold procsReturned
  split
  · exact ⟨he, quell_same rfl rfl rfl, fun h => by cases h⟩
  · exact ⟨he, quell_refl s, fun h => by cases h⟩

/-! ## Processes -/

/-- The process is not one of an environment, and its generator makes none. -/
def PtBare : Pt → Prop
  | .localNew _ g => ∀ w, (g w).Moves EnvLess w
  | .localWait _ _ k => ∀ w, (k w).Moves EnvLess w
  | .envNew | .envWait _ _ | .envProcNew _ | .envProc _ => False
  | _ => True

/-- No generator raises a RuntimeError, and there is no environment. -/
structure Soothed (C : Cfg) (w0 : Mach) (s : Sim) : Prop where
  muffled : Muffled .runtime C w0 s
  env : s.w.env = Option.none
  points : ∀ p pt, s.points p = some pt → PtBare pt

/-- The code raises a RuntimeError only because the process of a module has ended, or because of `E`. -/
def Sooths (C : Cfg) (w0 : Mach) (E : Prop) (m : SimM A) (s : Sim) (Q : A → Prop) : Prop :=
  Soothed C w0 s → Soothed C w0 (m s).1 ∧ Quell s (m s).1 ∧ ((m s).2 = .error .runtime → Lapsed (m s).1 ∨ E) ∧ ∀ a, (m s).2 = .ok a → Q a

variable {Q : A → Prop} {Q' : B → Prop}

theorem sooths_bind {m : SimM A} {f : A → SimM B} (hm : Sooths C w0 E m s Q) (hf : ∀ a s', m s = (s', .ok a) → Q a → Sooths C w0 E (f a) s' Q') : Sooths C w0 E (m >>= f) s Q' := by
  intro h
  obtain ⟨h1, h2, h3, h4⟩ := hm h
  show Soothed C w0 (SimM.bind m f s).1 ∧ Quell s (SimM.bind m f s).1 ∧ ((SimM.bind m f s).2 = .error .runtime → Lapsed (SimM.bind m f s).1 ∨ E) ∧ ∀ a, (SimM.bind m f s).2 = .ok a → Q' a
  unfold SimM.bind
  rcases hr : m s with ⟨s1, e | a⟩
  · rw [hr] at h1 h2 h3
    exact ⟨h1, h2, fun h' => h3 (by cases h'; rfl), fun _ h => by cases h⟩
  · rw [hr] at h1 h2 h4
    obtain ⟨a1, a2, a3, a4⟩ := hf a s1 hr (h4 a rfl) h1
    exact ⟨a1, quell_trans h2 a2, a3, a4⟩

theorem soothed_same (h : Soothed C w0 s) (h1 : s'.w = s.w) (h2 : s'.points = s.points) : Soothed C w0 s' :=
  ⟨muffled_same h.muffled h1 h2, by rw [h1]; exact h.env, fun p pt hp => h.points p pt (h2 ▸ hp)⟩

theorem sooths_still {m : SimM A} (h1 : Swerving (Practice C) m) (h2 : Docile m s) : Sooths C w0 E m s (fun _ => True) := fun h => by
  obtain ⟨a1, a2, a3⟩ := h2 h.env
  exact ⟨⟨muffled_swerve h.muffled (h1 s), a1, fun p pt hp => h.points p pt ((h1 s).points ▸ hp)⟩, a2, fun h => .inl (a3 h), fun _ _ => trivial⟩
theorem sooths_then {m : SimM A} {f : A → SimM B} (h1 : Regime C (Practice C) → Swerving (Practice C) m) (h2 : Docile m s) (hf : ∀ a s', m s = (s', .ok a) → Sooths C w0 E (f a) s' Q') :
    Sooths C w0 E (m >>= f) s Q' := sooths_bind (sooths_still (h1 (atoms_practice C).regime) h2) fun a s' h _ => hf a s' h
theorem sooths_pure {a : A} (h : Q a) : Sooths C w0 E (pure a) s Q := fun hs => ⟨hs, quell_refl s, (fun h => by cases h), fun _ h' => by cases h'; exact h⟩
theorem sooths_throw {e : PyErr} (h : e = .runtime → E) : Sooths C w0 E (SimM.throw e) s Q := fun hs => ⟨hs, quell_refl s, (fun h' => .inr (h (by cases h'; rfl))), fun _ h' => by cases h'⟩

/-- When a process waits again. -/
def ResSooth : Res → Prop
  | .wait _ pt => PtMute .runtime pt ∧ PtBare pt
  | .done _ => True

theorem sooths_process {pt : Pt} (h : PtMute .runtime pt) (hb : PtBare pt) (hi : PtIn (Practice C) pt) : Sooths C w0 E (process pt) s (fun _ => True) := by
  intro hs
  have hpt : ∀ q pt', fset s.points s.next (some pt) q = some pt' → (q = s.next ∧ pt' = pt) ∨ s.points q = some pt' := fun q pt' hq => by
    by_cases he : q = s.next
    · subst he
      rw [fset_same] at hq
      cases hq
      exact .inl ⟨rfl, rfl⟩
    · rw [fset_other _ _ he] at hq
      exact .inr hq
  refine ⟨⟨⟨hs.muffled.sound, (obeys_process hi w0 s hs.muffled.abides).1, fun q pt' hq => ?_⟩, hs.env, fun q pt' hq => ?_⟩, ?_, (fun h => by cases h), fun _ _ => trivial⟩
  · rcases hpt q pt' hq with ⟨-, rfl⟩ | hq
    · exact h
    · exact hs.muffled.points q pt' hq
  · rcases hpt q pt' hq with ⟨-, rfl⟩ | hq
    · exact hb
    · exact hs.points q pt' hq
  · exact quell_trans (quell_trans (quell_alloc (X := ⟨Option.none, false, some []⟩) (fun h => by cases h)) (quell_timed (s := s.alloc ⟨Option.none, false, some []⟩) (X := ⟨some (.ok .nothing), false, some [.resume s.next]⟩) (u := true) (d := 0) (fun h => by cases h))) (quell_same rfl rfl rfl)

theorem soothed_mach {w : Mach} (h : Soothed C w0 s) (hw : Practice C s.w w) (he : EnvLess s.w w) : Soothed C w0 { s with w := w } :=
  ⟨muffled_mach h.muffled hw, he h.env, h.points⟩

theorem sooths_localRun {name : String} {g : Mach → Out Mach YV Unit} (h : ∀ w, SoundM .runtime w → (g w).Calm .runtime (SoundM .runtime) (fun _ _ => True)) (hi : ∀ w, (g w).Moves (Practice C) w) (hb : ∀ w, (g w).Moves EnvLess w) :
    Sooths C w0 E (SimM.get (·.w) >>= fun w => localRun name (g w)) s ResSooth := by
  intro hs
  have h := h s.w (muffled_sound hs.muffled)
  have hi := hi s.w
  have hb := hb s.w
  show Soothed C w0 (localRun name (g s.w) s).1 ∧ Quell s (localRun name (g s.w) s).1 ∧ ((localRun name (g s.w) s).2 = .error .runtime → Lapsed (localRun name (g s.w) s).1 ∨ E) ∧ ∀ a, (localRun name (g s.w) s).2 = .ok a → ResSooth a
  cases ho : g s.w with
  | yield w y k =>
    rw [ho] at h hi hb
    have hm := soothed_mach hs hi.1 hb.1
    have hp : Quell s { s with w := w } := quell_same rfl rfl rfl
    cases y with
    | ev e =>
      obtain ⟨a1, a2, a3, a4⟩ := sooths_then (E := E) (fun hR => swerving_timeout hR (d := e.time - round4 s.now)) docile_timeout (fun t _ _ => sooths_pure (Q := ResSooth) (a := .wait t (.localWait name e k)) ⟨h, hb.2⟩) hm
      exact ⟨a1, quell_trans hp a2, a3, a4⟩
    | cont d => exact ⟨hm, hp, (fun h => by cases h), fun a ha => by cases ha; trivial⟩
    | procs => exact ⟨hm, hp, (fun h => by cases h), fun a ha => by cases ha; trivial⟩
    | nothing => exact ⟨hm, hp, (fun h => by cases h), fun a ha => by cases ha; trivial⟩
  | ret w a => rw [ho] at hi hb; exact ⟨soothed_mach hs hi hb, quell_same rfl rfl rfl, (fun h => by cases h), fun a ha => by cases ha; trivial⟩
  | raise w x => rw [ho] at h hi hb; exact ⟨soothed_mach hs hi hb, quell_same rfl rfl rfl, fun h' => absurd (by cases h'; rfl) h, fun a ha => by cases ha⟩

theorem sooths_localResume {name : String} {e : Ev} {k : Mach → Out Mach YV Unit} {x : Except PyErr SVal} (hx : x = .error .runtime → E) (h : ∀ w, SoundM .runtime w → (k w).Calm .runtime (SoundM .runtime) (fun _ _ => True)) (hi : ∀ w, (k w).Moves (Practice C) w) (hb : ∀ w, (k w).Moves EnvLess w) :
    Sooths C w0 E (localResume name e k x) s ResSooth := by
  unfold localResume
  split
  · exact sooths_pure trivial
  · exact sooths_throw fun h => hx (by rw [h])
  · exact sooths_then (fun hR => swerving_print hR) docile_print fun _ _ _ => sooths_then (fun hR => swerving_activateProc hR) docile_activateProc fun _ _ _ => sooths_then (fun hR => swerving_envInteraction hR) docile_envInteraction fun _ _ _ => sooths_localRun h hi hb

theorem sooths_procCycle (hC : Civil .runtime C) {pt : Pt} (h : PtMute .runtime pt) (hb : PtBare pt) : Sooths C w0 E (procCycle C pt) s ResSooth :=
  sooths_then (fun hR => swerving_get hR) docile_get fun _ _ _ => sooths_bind (sooths_process (fun w _ => calm_procedural hC _ w) (fun w => (atoms_procedural (quanta_envLess C) _).moves w) fun w => (atoms_practice C).regime.procedural _ w) fun _ _ _ _ => sooths_pure ⟨h, hb⟩

theorem sooths_spins {k : ℕ} : Sooths C w0 E (procSpins k) s ResSooth := sooths_then (fun hR => swerving_timeout hR) docile_timeout fun _ _ _ => sooths_pure ⟨trivial, trivial⟩

theorem sooths_procLoop : Sooths C w0 E procLoop s ResSooth := by
  unfold procLoop
  refine sooths_then (fun hR => swerving_get hR) docile_get fun l _ _ => ?_
  split
  · refine sooths_then (fun hR => swerving_setStarted hR) docile_setStarted fun _ _ _ => ?_
    exact sooths_then (fun hR => swerving_get hR) docile_get fun _ _ _ => sooths_then (fun hR => swerving_notifyAll hR _) (docile_notifyAll _) fun _ _ _ => sooths_spins
  · refine sooths_then (fun hR => swerving_get hR) docile_get fun _ _ _ => sooths_then (fun hR => swerving_get hR) docile_get fun _ _ _ => ?_
    split
    · exact sooths_spins
    · exact sooths_pure ⟨trivial, trivial⟩

theorem sooths_start (hC : Civil .runtime C) {name : String} {d : Desc} {g : ℕ → Pt} (hg : ∀ p, PtMute .runtime (g p) ∧ PtBare (g p)) :
    Sooths C w0 E (process (.localNew name (d.run C)) >>= fun pro => pure (.wait pro (g pro))) s ResSooth :=
  sooths_bind (sooths_process (fun w _ => mute_run hC d w) (fun w => (atoms_run (quanta_envLess C) d).moves w) fun w => (atoms_practice C).regime.run d w) fun _ _ _ _ => sooths_pure (hg _)

theorem takeFor_value {n : String} {x : PyErr} : ∀ {l : List PItem}, takeFor n l = .error x → x = .value
  | [], h => by cases h
  | .procedural :: r, h => by
    unfold takeFor at h
    split at h
    · cases h; rfl
    · cases ht : takeFor n r with
      | error y => rw [ht] at h; cases h; exact takeFor_value ht
      | ok o => rw [ht] at h; cases h
  | .gen m j d :: r, h => by
    unfold takeFor at h
    split at h
    · cases h
    · cases ht : takeFor n r with
      | error y => rw [ht] at h; cases h; exact takeFor_value ht
      | ok o => rw [ht] at h; cases h

theorem sooths_extraLoop (hC : Civil .runtime C) {name : String} : Sooths C w0 E (extraLoop C name) s ResSooth := by
  unfold extraLoop
  refine sooths_then (fun hR => swerving_get hR) docile_get fun l _ _ => ?_
  split
  · rename_i hx; exact sooths_throw fun h => by rw [takeFor_value hx] at h; cases h
  · refine sooths_then (fun hR => by veerset hR) (docile_set rfl rfl rfl rfl) fun _ _ _ => sooths_then (fun hR => swerving_activateOf hR) docile_activateOf fun _ _ _ => sooths_then (fun hR => swerving_get hR) docile_get fun _ _ _ => ?_
    split
    · exact sooths_then (fun hR => swerving_renew hR) docile_renew fun _ _ _ => sooths_pure ⟨trivial, trivial⟩
    · exact sooths_pure ⟨trivial, trivial⟩
  · refine sooths_then (fun hR => swerving_setStarted hR) docile_setStarted fun _ _ _ => sooths_then (fun hR => swerving_activateOf hR) docile_activateOf fun a _ _ => sooths_then (fun hR => swerving_get hR) docile_get fun busy s1 hb => ?_
    obtain ⟨rfl, rfl⟩ := get_eq hb
    split
    · exact sooths_start hC fun _ => ⟨trivial, trivial⟩
    · rename_i hn
      exact sooths_then (fun hR => swerving_succeed hR) (docile_succeed (by simpa using hn)) fun _ _ _ => sooths_start hC fun _ => ⟨trivial, trivial⟩

theorem sooths_extraAfterMain (hC : Civil .runtime C) {name : String} {pro : ℕ} {x : Except PyErr SVal} (hx : x = .error .runtime → E) : Sooths C w0 E (extraAfterMain C name pro x) s ResSooth := by
  unfold extraAfterMain
  split
  · refine sooths_then (fun hR => swerving_get hR) docile_get fun busy s1 hb => ?_
    obtain ⟨rfl, rfl⟩ := get_eq hb
    split
    · exact sooths_extraLoop hC
    · rename_i hn
      exact sooths_then (fun hR => swerving_interrupt hR) (docile_interrupt fun h => absurd h hn) fun _ _ _ => sooths_extraLoop hC
  · exact sooths_throw fun h => hx (by rw [h])
  · exact sooths_start hC (g := fun _ => .extraCont name) fun _ => ⟨trivial, trivial⟩
  · exact sooths_extraLoop hC

theorem sooths_extraAfterCont (hC : Civil .runtime C) {name : String} {x : Except PyErr SVal} (hx : x = .error .runtime → E) : Sooths C w0 E (extraAfterCont C name x) s ResSooth := by
  unfold extraAfterCont
  split
  · exact sooths_extraLoop hC
  · exact sooths_throw fun h => hx (by rw [h])
  · exact sooths_extraLoop hC

theorem sooths_code (hC : Civil .runtime C) {pt : Pt} {x : Except PyErr SVal} (hp : PtMute .runtime pt) (hb : PtBare pt) (hi : PtIn (Practice C) pt) (hx : x = .error .runtime → E) : Sooths C w0 E (code C pt x) s ResSooth := by
  unfold code
  split
  · exact sooths_procCycle hC trivial trivial
  · exact sooths_then (fun hR => swerving_procsReturned hR) docile_procsReturned fun _ _ _ => sooths_procLoop
  · exact sooths_spins
  · split
    · exact sooths_procCycle hC trivial trivial
    · exact sooths_spins
  · exact sooths_then (fun hR => swerving_procsReturned hR) docile_procsReturned fun _ _ _ => sooths_then (fun hR => swerving_newEvent hR) docile_newEvent fun _ _ _ => sooths_then (fun hR => by veerset hR) (docile_set rfl rfl rfl rfl) fun _ _ _ => sooths_procLoop
  · exact sooths_extraLoop hC
  · exact sooths_then (fun hR => swerving_renew hR) docile_renew fun _ _ _ => sooths_extraLoop hC
  · exact sooths_extraAfterMain hC hx
  · exact sooths_extraAfterCont hC hx
  · exact sooths_localRun hp hi hb
  · exact sooths_localResume hx hp hi hb
  · exact hb.elim
  · exact hb.elim
  · exact hb.elim
  · exact hb.elim
  · exact sooths_throw fun h => hx (by rw [h])

/-! ## Steps -/

/-- The process of a module has failed. -/
def Fallen (s : Sim) : Prop := ∃ n q x, (n, q) ∈ s.extra ∧ (s.events q).value = some (.error x)

/-- The process of a module has failed with something else. -/
def Broken (s : Sim) : Prop := ∃ n q x, (n, q) ∈ s.extra ∧ (s.events q).value = some (.error x) ∧ x ≠ .runtime

theorem fallen_broken (h : Fallen s) : (∃ ev, Shaken s ev) ∨ Broken s := by
  obtain ⟨n, q, x, h1, h2⟩ := h
  by_cases hx : x = .runtime
  · subst hx; exact .inl ⟨q, h2⟩
  · exact .inr ⟨n, q, x, h1, h2, hx⟩

theorem fallen_lapsed {K : Prop} (hf : Firm K s) (h : Lapsed s) : Fallen s := by
  obtain ⟨n, q, h1, h2⟩ := h
  cases hp : s.points q with
  | some pt =>
    rw [Sim.triggered, (hf.alive n q pt h1 hp).2] at h2; cases h2
  | none =>
    obtain ⟨x, l, h3, -⟩ := hf.dead n q h1 hp
    exact ⟨n, q, x, h1, by rw [h3]⟩

/-- The ends of the processes of modules are kept. -/
def Lasts (s s' : Sim) : Prop := s'.extra = s.extra ∧ ∀ n q v, (n, q) ∈ s.extra → (s.events q).value = some v → (s'.events q).value = some v

theorem lasts_trans {a b c : Sim} (h1 : Lasts a b) (h2 : Lasts b c) : Lasts a c :=
  ⟨h2.1.trans h1.1, fun n q v hn hv => h2.2 n q v (h1.1 ▸ hn) (h1.2 n q v hn hv)⟩
theorem lasts_fset {ev : ℕ} {X : SEv} (h : ∀ v, (s.events ev).value = some v → X.value = some v) : Lasts s { s with events := fset s.events ev X } :=
  ⟨rfl, fun n q v _ hv => by
    dsimp only
    by_cases he : q = ev
    · subst he; rw [fset_same]; exact h v hv
    · rw [fset_other _ _ he]; exact hv⟩
theorem lasts_same (h1 : s'.extra = s.extra) (h2 : s'.events = s.events) : Lasts s s' := ⟨h1, fun n q v _ hv => by rw [h2]; exact hv⟩
theorem lasts_drop {ev : ℕ} {c : Callback} : Lasts s (s.dropCallback ev c) := lasts_fset fun _ h => h
theorem lasts_trigger {ev : ℕ} {v : Except PyErr SVal} (h : (s.events ev).value = Option.none) : Lasts s (s.trigger ev v) :=
  lasts_trans (lasts_fset (X := { s.events ev with value := some v }) fun v hv => by rw [h] at hv; cases hv) (lasts_same rfl rfl)
theorem broken_lasts (h : Broken s) (hl : Lasts s s') : Broken s' := by
  obtain ⟨n, q, x, h1, h2, h3⟩ := h
  exact ⟨n, q, x, hl.1 ▸ h1, hl.2 n q _ h1 h2, h3⟩
theorem lasts_spared {K : Prop} (hf : Firm K s) (h : Spared s s') : Lasts s s' := ⟨h.extra, fun n q v hn hv => by rw [h.evs n q hn (hf.lt n q hn)]; exact hv⟩

/-- What a part of a step does: another event fails with a RuntimeError only because the process of a module has failed, or because of `E`. -/
structure Eases (C : Cfg) (w0 : Mach) (E : Prop) (s s' : Sim) : Prop where
  soothed : Soothed C w0 s'
  lasts : Lasts s s'
  shaken : ∀ ev, Shaken s' ev → Shaken s ev ∨ Fallen s ∨ E

theorem eases_of (h : Soothed C w0 s) (h1 : s'.w = s.w) (h2 : s'.points = s.points) (hl : Lasts s s') (hq : Quell s s') : Eases C w0 E s s' :=
  ⟨soothed_same h h1 h2, hl, fun ev he => .inl (hq.back ev he)⟩

theorem eases_after (h : Quell s s') (hl : Lasts s s') {s2 : Sim} (h2 : Eases C w0 E s' s2) (hf : Fallen s' → Fallen s) : Eases C w0 E s s2 :=
  ⟨h2.soothed, lasts_trans hl h2.lasts, fun ev he => (h2.shaken ev he).imp (h.back ev) (Or.imp_left hf)⟩

theorem eases_resume {K : Prop} (hC : Civil .runtime C) {x : Except PyErr SVal} (h : Soothed C w0 s) (hf : Firm K s) (hv : Vacant s) (hx : x = .error .runtime → E) : Eases C w0 E s (s.resume C p x) := by
  cases hp : s.points p with
  | none =>
    have : s.resume C p x = s := by unfold Sim.resume; rw [hp]
    rw [this]; exact ⟨h, lasts_same rfl rfl, fun _ h => .inl h⟩
  | some pt =>
    have hlt : p < s.next := by
      by_contra hl
      rw [hv p (not_lt.1 hl)] at hp; cases hp
    have ha := abides_resume (p := p) (x := x) (atoms_practice C).regime h.muffled.abides
    have hfc := firms_code (C := C) (pt := pt) (x := x) hf
    unfold Firms Does at hfc
    rw [resume_eq C hp] at ha ⊢
    obtain ⟨h3, h4, h5, h6⟩ := sooths_code (E := E) hC (h.muffled.points p pt hp) (h.points p pt hp) (h.muffled.abides.points p pt hp) hx h
    have hend : ∀ {s1 : Sim} {v : Except PyErr SVal}, Soothed C w0 s1 → Soothed C w0 (s1.ends p v) := fun {s1 v} h1 => by
      refine ⟨muffled_ends h1.muffled, h1.env, fun q pt' hq => ?_⟩
      have hq : fset s1.points p Option.none q = some pt' := hq
      by_cases he : q = p
      · subst he; rw [fset_same] at hq; cases hq
      · rw [fset_other _ _ he] at hq; exact h1.points q pt' hq
    have hel : ∀ {s1 : Sim} {v : Except PyErr SVal}, Firm K s1 → s1.points p = some pt → Lasts s1 (s1.ends p v) := fun {s1 v} hf1 hp1 => by
      refine ⟨rfl, fun n q v' hn hv' => ?_⟩
      have hne : q ≠ p := fun he => by
        rw [he] at hn hv'
        rw [(hf1.alive n p pt hn hp1).2] at hv'; cases hv'
      have : (s1.ends p v).events q = s1.events q := fset_other _ _ hne
      rw [this]; exact hv'
    rcases hcode : code C pt x s with ⟨s1, e | r⟩
    · rw [hcode] at h3 h4 h5 hfc
      have hp1 := (hfc.2.1.pts p hlt).trans hp
      have hl1 := lasts_spared hf hfc.2.1
      refine ⟨hend h3, lasts_trans hl1 (hel hfc.1 hp1), fun ev he => ?_⟩
      by_cases hee : e = .runtime
      · subst hee
        refine .inr ((h5 rfl).imp_left fun hla => ?_)
        obtain ⟨n, q, y, a1, a2⟩ := fallen_lapsed hfc.1 hla
        have hn : (n, q) ∈ s.extra := hfc.2.1.extra ▸ a1
        exact ⟨n, q, y, hn, by rw [← hfc.2.1.evs n q hn (hf.lt n q hn)]; exact a2⟩
      · refine .inl (h4.back ev ((quell_trans (b := { s1 with points := fset s1.points p Option.none }) (quell_same rfl rfl rfl) (quell_trigger (ev := p) (v := .error e) fun hh => hee (by cases hh; rfl))).back ev he))
    · rw [hcode] at h3 h4 h6 ha hfc
      have h6 := h6 r rfl
      have hp1 := (hfc.2.1.pts p hlt).trans hp
      have hl1 := lasts_spared hf hfc.2.1
      cases r with
      | wait ev pt' =>
        refine ⟨⟨muffled_waits h3.muffled h6.1 ha, h3.env, fun q pt1 hq => ?_⟩, lasts_trans hl1 (lasts_trans (b := { s1 with points := fset s1.points p (some pt'), target := fset s1.target p ev }) (lasts_same rfl rfl) (lasts_fset fun _ h => h)), fun x hx => .inl (h4.back x ((quell_trans (b := { s1 with points := fset s1.points p (some pt'), target := fset s1.target p ev }) (quell_same rfl rfl rfl) quell_addCallback).back x hx))⟩
        have hq : fset s1.points p (some pt') q = some pt1 := by
          rw [← hq]
          exact congrFun (addCallback_w ({ s1 with points := fset s1.points p (some pt'), target := fset s1.target p ev } : Sim) ev (.resume p)).2.symm q
        by_cases he : q = p
        · subst he
          rw [fset_same] at hq
          cases hq
          exact h6.2
        · rw [fset_other _ _ he] at hq
          exact h3.points q pt1 hq
      | done v =>
        exact ⟨hend h3, lasts_trans hl1 (hel hfc.1 hp1), fun ev he => .inl (h4.back ev ((quell_trans (b := { s1 with points := fset s1.points p Option.none }) (quell_same rfl rfl rfl) (quell_trigger (ev := p) (v := .ok v) fun hh => by cases hh)).back ev he))⟩

theorem fallen_value (he : s'.extra = s.extra) (hv : ∀ q, (s'.events q).value = (s.events q).value) (h : Fallen s') : Fallen s := by
  obtain ⟨n, q, x, h1, h2⟩ := h
  exact ⟨n, q, x, he ▸ h1, by rw [← hv]; exact h2⟩
theorem fset_value {f : ℕ → SEv} {ev : ℕ} {X : SEv} (h : X.value = (f ev).value) (q : ℕ) : (fset f ev X q).value = (f q).value := by
  by_cases he : q = ev
  · subst he; rw [fset_same]; exact h
  · rw [fset_other _ _ he]

theorem eases_callback {K : Prop} (hC : Civil .runtime C) {ev : ℕ} {v : Except PyErr SVal} {cb : Callback} (h : Soothed C w0 s) (hf : Firm K s) (hv : Vacant s) (hev : Neutral s ev) :
    Eases C w0 (v = .error .runtime) s (callback C ev v s cb) := by
  cases cb with
  | resume p =>
    rcases v with x | v
    · exact eases_after quell_defuse (lasts_fset fun _ h => h) (eases_resume (s := s.defuse ev) hC (soothed_same h rfl rfl) (firm_defuse hf hev).1 hv id) (fallen_value rfl (fset_value rfl))
    · exact eases_resume hC h hf hv id
  | interrupt p =>
    simp only [callback]
    split
    · exact eases_of h rfl rfl (lasts_same rfl rfl) (quell_refl s)
    · exact eases_after quell_drop (lasts_fset fun _ h => h) (eases_resume (s := s.dropCallback (s.target p) (.resume p)) hC (soothed_same h rfl rfl) (firm_drop hf).1 hv id) (fallen_value rfl (fset_value rfl))
  | check d =>
    simp only [callback]
    split
    · exact eases_of h rfl rfl (lasts_same rfl rfl) (quell_refl s)
    · rename_i hn
      have hn : (s.events d).value = Option.none := by simpa [Sim.triggered] using hn
      rcases v with x | v
      · refine ⟨soothed_same h rfl rfl, lasts_trans (lasts_fset (X := { s.events ev with defused := true }) fun _ h => h) (lasts_trigger (s := s.defuse ev) ((fset_value (f := s.events) (ev := ev) (X := { s.events ev with defused := true }) rfl d).trans hn)), fun y hy => ?_⟩
        by_cases hx : x = .runtime
        · subst hx; exact .inr (.inr rfl)
        · exact .inl ((quell_trans quell_defuse (quell_trigger (v := .error x) fun hh => hx (by cases hh; rfl))).back y hy)
      · exact eases_of h rfl rfl (lasts_trigger hn) (quell_trigger fun h => by cases h)
  | build d x y => exact eases_of h rfl rfl (lasts_trans lasts_drop lasts_drop) (quell_trans quell_drop quell_drop)
  | stop => exact eases_of h rfl rfl (lasts_same rfl rfl) (quell_refl s)

/-- If an event has failed with a RuntimeError, then the process of a module has failed with something else. -/
def Condoned (s : Sim) : Prop := (∃ ev, Shaken s ev) → Broken s

theorem condoned_eases (h : Condoned s) (he : Eases C w0 E s s') (hE : E → ∃ ev, Shaken s ev) : Condoned s' := fun ⟨ev, hx⟩ => by
  refine broken_lasts ?_ he.lasts
  rcases he.shaken ev hx with h1 | h1 | h1
  · exact h ⟨ev, h1⟩
  · exact (fallen_broken h1).elim h id
  · exact h (hE h1)

theorem condoned_foldl {K : Prop} (hC : Civil .runtime C) {ev : ℕ} {v : Except PyErr SVal} (l : List Callback) : ∀ {s : Sim}, Soothed C w0 s → Condoned s → Firm K s → Propped l s → (l ≠ [] → Neutral s ev) → (∀ c, .check c ∈ l → Neutral s c) →
    (v = .error .runtime → Broken s) → Soothed C w0 (l.foldl (callback C ev v) s) ∧ Condoned (l.foldl (callback C ev v) s) := by
  induction l with
  | nil => intro s h h2 _ _ _ _ _; exact ⟨h, h2⟩
  | cons cb l ih =>
    intro s h hst hf hp hev hs hE
    obtain ⟨h1, h2⟩ := firm_callback C (v := v) (cb := cb) hf hp.vacant (hev (by simp)) fun c hc => hs c (by simp [hc])
    have keep : ∀ a, Neutral s a → Neutral (callback C ev v s cb) a := fun a ha n hn => ha n (by rw [← h2]; exact hn)
    have he := eases_callback (K := K) hC (v := v) (cb := cb) h hf hp.vacant (hev (by simp))
    refine ih he.soothed ?_ h1 (propped_callback C hp) (fun _ => keep _ (hev (by simp))) (fun c hc => keep _ (hs c (by simp [hc]))) fun h => broken_lasts (hE h) he.lasts
    rintro ⟨x, hx⟩
    refine broken_lasts ?_ he.lasts
    rcases he.shaken x hx with h1 | h1 | h1
    · exact hst ⟨x, h1⟩
    · exact (fallen_broken h1).elim hst id
    · exact hE h1

theorem lasts_taken {en : Entry} {q : List Entry} : Lasts s (s.taken en q) :=
  lasts_trans (b := { s with events := fset s.events en.ev { s.events en.ev with callbacks := Option.none } }) (lasts_fset fun _ h => h) (lasts_same rfl rfl)

theorem condoned_step (hC : Civil .runtime C) (h : Soothed C w0 s) (hs : Condoned s) (hf : Firm True s) (hp : Propped [] s) (hi : Inv s) (hl : Stepped.leads (s.step C) s') : Soothed C w0 s' ∧ Condoned s' := by
  have htk : ∀ en q, Soothed C w0 (s.taken en q) ∧ Condoned (s.taken en q) := fun en q =>
    ⟨soothed_same h rfl rfl, fun ⟨ev, hx⟩ => broken_lasts (hs ⟨ev, shaken_taken hx⟩) lasts_taken⟩
  have hcl : ∀ en q, s.queue = en :: q → Soothed C w0 (s.called C en q) ∧ Condoned (s.called C en q) := fun en q hq => by
    refine condoned_foldl (K := True) hC _ (htk en q).1 (htk en q).2 (firm_taken hf hi hq fun _ => trivial) (propped_taken hp hi hq).1 (fun hl n hn => hl ?_) (fun c hc => hf.checks _ _ hc) fun hv => ?_
    · exact firm_cbs hf hn
    · refine broken_lasts (hs ⟨en.ev, ?_⟩) lasts_taken
      unfold Shaken
      cases hx : (s.events en.ev).value with
      | none => rw [hx] at hv; cases hv
      | some v => rw [hx] at hv; exact congrArg some hv
  rcases step_cases (C := C) (s := s) rfl with ⟨h0, _⟩ | ⟨en, q, hq, ⟨_, h0⟩ | ⟨hst, h0 | ⟨x, h0⟩⟩⟩ <;> rw [h0] at hl <;> rcases hl with hs | hs | ⟨_, hs⟩ <;> cases hs
  · exact htk en q
  · exact hcl en q hq
  · exact hcl en q hq

/-! ## Runs -/

variable {w : Mach} {args : Option EnvArgs} {t : ℚ}

theorem sooths_initExtra : ∀ (l : List String) {s : Sim}, Sooths C w0 False (initExtra l) s (fun _ => True)
  | [], _ => sooths_pure trivial
  | n :: r, s => by
    unfold initExtra
    split
    · exact sooths_initExtra r
    · refine sooths_bind (sooths_process (pt := .extraNew n) trivial trivial trivial) fun p _ _ _ => sooths_then (fun hR => swerving_newEvent hR) docile_newEvent fun a _ _ => sooths_then (fun hR => by veerset hR) (docile_set rfl rfl rfl rfl) fun _ _ _ => sooths_initExtra r

theorem soothed_init (hs : SoundM .runtime w) (he : w.env = Option.none) : Soothed C w (Sim.init w args t) ∧ ∀ ev, ¬ Shaken (Sim.init w args t) ev := by
  have h0 : Soothed C w (Sim.blank w args t) := ⟨⟨hs, ⟨(atoms_practice C).regime.refl w, fun q pt hq => by cases hq⟩, fun q pt hq => by cases hq⟩, he, fun q pt hq => by cases hq⟩
  have hI : Sooths C w False (do
    let _ ← process .procNew
    initExtra (w.bufs.map Prod.fst)
    if w.env.isSome then do
      let _ ← process .envNew
      pure ()
    else pure () : SimM Unit) (Sim.blank w args t) (fun _ => True) := by
    refine sooths_bind (sooths_process (pt := .procNew) trivial trivial trivial) fun _ _ _ _ => sooths_bind (sooths_initExtra _) fun _ _ _ _ => ?_
    rw [he]
    exact sooths_pure trivial
  obtain ⟨h1, h2, -⟩ := hI h0
  exact ⟨h1, fun ev hx => by cases h2.back ev hx⟩

theorem condoned_quell (h : Condoned s) (hq : Quell s s') (hl : Lasts s s') : Condoned s' := fun ⟨ev, hx⟩ => broken_lasts (h ⟨ev, hq.back ev hx⟩) hl

/-- Without an environment, a RuntimeError shows that the process of a module has failed with something else. -/
theorem condoned_reachable (hC : Civil .runtime C) (hs : SoundM .runtime w) (he : w.env = Option.none) (h : Reachable C w args t s) : Soothed C w s ∧ Condoned s := by
  have key : ∀ {s s' : Sim}, Reachable C w args t s → Stepped.leads (s.step C) s' → Soothed C w s ∧ Condoned s → Soothed C w s' ∧ Condoned s' := fun hr hl ih =>
    condoned_step hC ih.1 ih.2 (firm_reachable hr).1 (propped_reachable hr) (fine_reachable hr).1 hl
  induction h with
  | init => exact (soothed_init hs he).imp_right fun h ⟨ev, hx⟩ => absurd hx (h ev)
  | @stop s1 s2 q r hr hs ih =>
    have : s2 = (s1.setStop q).1 := by rw [hs]
    subst this
    have hnew := (firm_reachable hr).1.lt
    unfold Sim.setStop
    split
    · exact ih
    · refine ⟨soothed_same ih.1 rfl rfl, condoned_quell ih.2 (quell_timed (X := ⟨some (.ok .nothing), false, some [.stop]⟩) (fun h => by cases h)) ⟨rfl, fun n p v hn hv => ?_⟩⟩
      have : ((s1.alloc ⟨some (.ok .nothing), false, some [.stop]⟩).schedule s1.next true (q - s1.now)).events p = s1.events p := events_alloc_old (Nat.ne_of_lt (hnew n p hn))
      rw [this]; exact hv
  | step hr hs ih => exact key hr (.inl hs) ih
  | stopped hr hs ih => exact key hr (.inr (.inl hs)) ih
  | raised hr hs ih => exact key hr (.inr (.inr ⟨_, hs⟩)) ih
  | @compile s1 s2 r hr hs ih =>
    have : s2 = (compileAtEnd C s1).1 := by rw [hs]
    subst this
    have h1 := (atoms_practice C).regime.compile s1.w
    have h2 := (quanta_envLess C).compile s1.w
    unfold compileAtEnd
    split
    · rcases hci : compileIn C s1.w with ⟨w', x | o⟩ <;> rw [hci] at h1 h2 <;> exact ⟨soothed_mach ih.1 h1 h2, condoned_quell ih.2 (quell_same rfl rfl rfl) (lasts_same rfl rfl)⟩
    · exact ih

end Verif
