import Verif.Lemmas.Tally
import Verif.Lemmas.ReadyRun
/-! # Answers are paid for by requests: the simulation -/
namespace Verif
open Verif.Spec

variable {A B : Type} {b : String} {X : ℕ → Prop} {N n m p : ℕ} {s s' : Sim} {C : Cfg}

/-! ## What processes that wait can pay for -/

/-- The process that waits here can pay with `n` for all it does. -/
def PtPays (b : String) (n : ℕ) (w : Mach) : Pt → Prop
  | .localNew _ g => ∀ w', Persist w w' → Pays b n w' (g w')
  | .localWait _ e k => ∀ w', Persist w w' → ∃ m, price b e + m ≤ n + requestsBy w'.rules b e ∧ Pays b m w' (k w')
  | .envWait _ k => ∀ w', (k w').Moves Passive w'
  | .envProcNew e => price b e = 0
  | .envProc e => price b e = 0
  | _ => True

theorem ptPays_le {w : Mach} {pt : Pt} (h : PtPays b n w pt) (hl : n ≤ m) : PtPays b m w pt := by
  cases pt <;> try exact h
  · exact fun w' hw => affords_le (h w' hw) hl
  · intro w' hw
    obtain ⟨k, h1, h2⟩ := h w' hw
    exact ⟨k, by omega, h2⟩

theorem ptPays_persist {w w' : Mach} {pt : Pt} (h : PtPays b n w pt) (hw : Persist w w') : PtPays b n w' pt := by
  cases pt <;> try exact h
  · exact fun w2 h2 => h w2 (persist_trans hw h2)
  · exact fun w2 h2 => h w2 (persist_trans hw h2)

/-! ## The books -/

/-- What is in the lists of processes. -/
def heldOf (b : String) (s : Sim) : ℕ := worthAll b s.w.procs + worthAll b (s.started.getD [])

/-- The answers so far, and those that can still be given, are not more than what was asked for: processes that wait (other than those in `X`) and continuations that were
not taken yet have what is on their account in `L`, and `N` is left. -/
def Solvent (b : String) (X : ℕ → Prop) (N : ℕ) (s : Sim) : Prop := ∃ L : List ℕ,
  (∀ p pt, s.points p = some pt → ¬ X p → PtPays b (L.count p) s.w pt) ∧
  (∀ ev d, (s.events ev).value = some (.ok (.cont d)) → (s.events ev).callbacks = Option.none ∨ worth b d ≤ L.count ev) ∧
  answersOf b s.trace + L.length + heldOf b s + N ≤ requestsOf s.w.rules b s.trace ∧
  ∀ l, l <+: s.trace → answersOf b l ≤ requestsOf s.w.rules b l

theorem solvent_le (h : Solvent b X N s) (hl : m ≤ N) : Solvent b X m s := by
  obtain ⟨L, h1, h2, h3, h4⟩ := h
  exact ⟨L, h1, h2, by omega, h4⟩

theorem length_without (L : List ℕ) (e : ℕ) : L.length = (L.filter (fun q => q ≠ e)).length + L.count e := by
  have := List.length_eq_countP_add_countP (p := fun q => decide (q ≠ e)) (l := L)
  rw [this, List.countP_eq_length_filter]
  congr 1
  unfold List.count
  refine List.countP_congr fun x _ => ?_
  simp

/-- Take what is on an account. -/
theorem solvent_free (h : Solvent b X N s) {e : ℕ} (hc : ∀ d, (s.events e).value = some (.ok (.cont d)) → (s.events e).callbacks = Option.none) :
    ∃ n, (∀ pt, s.points e = some pt → ¬ X e → PtPays b n s.w pt) ∧ Solvent b (fun q => X q ∨ q = e) (N + n) s := by
  obtain ⟨L, h1, h2, h3, h4⟩ := h
  refine ⟨L.count e, fun pt hp hx => h1 e pt hp hx, L.filter (fun q => q ≠ e), fun q pt hp hx => ?_, fun ev d hv => ?_, ?_, h4⟩
  · have hq : q ≠ e := fun h => hx (.inr h)
    rw [List.count_filter (by simpa using hq)]
    exact h1 q pt hp fun h => hx (.inl h)
  · by_cases he : ev = e
    · subst he; exact .inl (hc d hv)
    · rw [List.count_filter (by simpa using he)]
      exact h2 ev d hv
  · have := length_without L e
    omega

/-- Changes that cost nothing. -/
structure Thrift (b : String) (s s' : Sim) : Prop where
  points : s'.points = s.points
  trace : s'.trace = s.trace
  held : heldOf b s' ≤ heldOf b s
  rules : s'.w.rules = s.w.rules
  conts : ∀ ev d, (s'.events ev).value = some (.ok (.cont d)) → (s.events ev).value = some (.ok (.cont d)) ∧ ((s.events ev).callbacks = Option.none → (s'.events ev).callbacks = Option.none)

theorem thrift_refl (s : Sim) : Thrift b s s := ⟨rfl, rfl, le_rfl, rfl, fun _ _ h => ⟨h, id⟩⟩
theorem thrift_trans {s1 s2 s3 : Sim} (h1 : Thrift b s1 s2) (h2 : Thrift b s2 s3) : Thrift b s1 s3 :=
  ⟨h2.points.trans h1.points, h2.trace.trans h1.trace, h2.held.trans h1.held, h2.rules.trans h1.rules, fun ev d h =>
    have g2 := h2.conts ev d h
    have g1 := h1.conts ev d g2.1
    ⟨g1.1, fun h => g2.2 (g1.2 h)⟩⟩

theorem solvent_thrift (h : Solvent b X N s) (ht : Thrift b s s') : Solvent b X N s' := by
  obtain ⟨L, h1, h2, h3, h4⟩ := h
  refine ⟨L, fun q pt hp hx => ptPays_persist (h1 q pt (ht.points ▸ hp) hx) (persist_same ht.rules), fun ev d hv => ?_, ?_, fun l hl => by rw [ht.rules]; exact h4 l (ht.trace ▸ hl)⟩
  · obtain ⟨g1, g2⟩ := ht.conts ev d hv
    exact (h2 ev d g1).imp g2 id
  · rw [ht.trace, ht.rules]
    have := ht.held
    omega

/-- The state of the model changes. -/
theorem solvent_mach {w : Mach} (h : Solvent b X N s) (hp : Persist s.w w) (hl : worthAll b w.procs + m ≤ worthAll b s.w.procs + N) : Solvent b X m { s with w := w } := by
  obtain ⟨L, h1, h2, h3, h4⟩ := h
  refine ⟨L, fun q pt hq hx => ptPays_persist (h1 q pt hq hx) hp, h2, ?_, fun l hl => le_trans (h4 l hl) (requestsOf_persist hp l)⟩
  have := requestsOf_persist (b := b) hp s.trace
  show answersOf b s.trace + L.length + (worthAll b w.procs + worthAll b (s.started.getD [])) + m ≤ requestsOf w.rules b s.trace
  unfold heldOf at h3
  omega

theorem thrift_same (h1 : s'.points = s.points) (h2 : s'.trace = s.trace) (h3 : s'.w.procs = s.w.procs) (h4 : s'.started = s.started) (h5 : s'.w.rules = s.w.rules)
    (h6 : ∀ ev d, (s'.events ev).value = some (.ok (.cont d)) → (s.events ev).value = some (.ok (.cont d)) ∧ ((s.events ev).callbacks = Option.none → (s'.events ev).callbacks = Option.none)) : Thrift b s s' :=
  ⟨h1, h2, by unfold heldOf; rw [h3, h4], h5, h6⟩

/-! ## Code that costs nothing -/

/-- Code that costs nothing. -/
def Thrifty (b : String) (m : SimM A) : Prop := ∀ s : Sim, Thrift b s (m s).1

theorem thrifty_bind {m : SimM A} {f : A → SimM B} (hm : Thrifty b m) (hf : ∀ a, Thrifty b (f a)) : Thrifty b (m >>= f) := by
  intro s
  show Thrift b s (SimM.bind m f s).1
  unfold SimM.bind
  have h1 := hm s
  rcases h : m s with ⟨s1, e | a⟩
  · rw [h] at h1; exact h1
  · rw [h] at h1; exact thrift_trans h1 (hf a s1)

theorem thrifty_pure {a : A} : Thrifty b (pure a) := fun s => thrift_refl s
theorem thrifty_throw {e : PyErr} : Thrifty b (SimM.throw e : SimM A) := fun s => thrift_refl s
theorem thrifty_get {f : Sim → A} : Thrifty b (SimM.get f) := fun s => thrift_refl s
theorem thrifty_set {f : Sim → Sim} (h : ∀ s : Sim, (f s).trace = s.trace ∧ (f s).started = s.started ∧ (f s).w.procs = s.w.procs ∧ (f s).events = s.events ∧ (f s).points = s.points ∧
    (f s).w.rules = s.w.rules) : Thrifty b (SimM.set f) := fun s => by
  obtain ⟨h1, h2, h3, h4, h5, h6⟩ := h s
  refine thrift_same h5 h1 h3 h2 h6 fun ev d hv => ?_
  change ((f s).events ev).value = _ at hv
  rw [h4] at hv
  refine ⟨hv, fun h => ?_⟩
  change ((f s).events ev).callbacks = _
  rw [h4]; exact h

theorem thrift_alloc {E : SEv} (hE : ∀ d, E.value ≠ some (.ok (.cont d))) (s : Sim) : Thrift b s (s.alloc E) :=
  thrift_same rfl rfl rfl rfl rfl fun ev d hv => by
    by_cases he : ev = s.next
    · subst he; rw [events_alloc_new] at hv; exact absurd hv (hE d)
    · rw [events_alloc_old he] at hv ⊢; exact ⟨hv, id⟩
theorem thrift_schedule (s : Sim) (ev : ℕ) (u : Bool) (q : ℚ) : Thrift b s (s.schedule ev u q) := thrift_same rfl rfl rfl rfl rfl fun _ _ h => ⟨h, id⟩
theorem thrift_timer {E : SEv} (hE : ∀ d, E.value ≠ some (.ok (.cont d))) (s : Sim) (ev : ℕ) (u : Bool) (q : ℚ) : Thrift b s ((s.alloc E).schedule ev u q) :=
  thrift_trans (thrift_alloc hE s) (thrift_schedule _ _ _ _)
theorem thrift_trigger {v : Except PyErr SVal} (hv : ∀ d, v ≠ .ok (.cont d)) (s : Sim) (ev : ℕ) : Thrift b s (s.trigger ev v) :=
  thrift_same rfl rfl rfl rfl rfl fun x d hx => by
    have hx : (fset s.events ev { s.events ev with value := some v } x).value = _ := hx
    show _ ∧ (_ → (fset s.events ev { s.events ev with value := some v } x).callbacks = _)
    by_cases he : x = ev
    · subst he; rw [fset_same] at hx; exact absurd (Option.some.inj hx) (hv d)
    · rw [fset_other _ _ he] at hx ⊢; exact ⟨hx, id⟩
theorem thrift_addCallback (s : Sim) (ev : ℕ) (cb : Callback) : Thrift b s (s.addCallback ev cb) :=
  thrift_same rfl rfl rfl rfl rfl fun x d hx => by
    rw [value_addCallback] at hx
    exact ⟨hx, fun h => by rw [none_addCallback]; exact h⟩
theorem thrift_thin (h : Thin s s') (h1 : s'.w = s.w) (h2 : s'.started = s.started) (h3 : s'.trace = s.trace) : Thrift b s s' :=
  thrift_same h.points h3 (by rw [h1]) h2 (by rw [h1]) fun ev d hv => ⟨by rw [← h.value]; exact hv, h.none ev⟩

theorem thrifty_newEvent : Thrifty b newEvent := fun s => thrift_alloc (fun _ h => by cases h) s
theorem thrifty_succeed {ev : ℕ} : Thrifty b (succeed ev) := fun s => by
  unfold succeed
  split
  · exact thrift_refl s
  · exact thrift_trigger (fun _ h => by cases h) s ev
theorem thrifty_timeout {d : ℚ} : Thrifty b (timeout d) := fun s => by
  unfold timeout
  split
  · exact thrift_refl s
  · exact thrift_timer (fun _ h => by cases h) s _ _ _
theorem thrifty_interrupt {r : ℕ} : Thrifty b (interruptProcess r) := fun s => by
  unfold interruptProcess
  split
  · exact thrift_refl s
  · exact thrift_timer (fun _ h => by cases h) s _ _ _
theorem thrifty_anyOf {x y : ℕ} : Thrifty b (anyOf x y) := fun s => by
  have key : ∀ (c ev : ℕ) (s : Sim), Thrift b s (if s.processed ev then (if s.triggered c then s else s.trigger c (.ok .nothing)) else s.addCallback ev (.check c)) := fun c ev s => by
    split
    · split
      · exact thrift_refl s
      · exact thrift_trigger (fun _ h => by cases h) s _
    · exact thrift_addCallback s _ _
  have h0 : Thrift b s (s.alloc ⟨Option.none, false, some [.build s.next x y]⟩) := thrift_alloc (fun _ h => by cases h) s
  exact thrift_trans (thrift_trans h0 (key s.next x _)) (key s.next y _)
theorem thrifty_activateOf {name : String} : Thrifty b (activateOf name) := fun s => by
  unfold activateOf
  cases alook name s.activate <;> exact thrift_refl s
theorem thrifty_interruptExtra {name : String} : Thrifty b (interruptExtra name) := fun s => by
  unfold interruptExtra
  cases alook name s.extra with
  | none => exact thrift_refl s
  | some p => exact thrifty_interrupt s
theorem thrifty_ite {c : Prop} [Decidable c] {m m' : SimM A} (h : Thrifty b m) (h' : Thrifty b m') : Thrifty b (if c then m else m') := by split <;> assumption

macro "thriftset" : tactic => `(tactic| (refine thrifty_set fun _ => ?_; exact ⟨rfl, rfl, rfl, rfl, rfl, rfl⟩))

macro "thrifty" : tactic => `(tactic| repeat' with_reducible first
  | assumption
  | exact thrifty_pure | exact thrifty_throw | exact thrifty_get | exact thrifty_newEvent | exact thrifty_succeed | exact thrifty_activateOf | exact thrifty_interruptExtra
  | exact thrifty_interrupt | exact thrifty_anyOf | exact thrifty_timeout
  | thriftset
  | refine thrifty_ite ?_ ?_
  | refine thrifty_bind ?_ fun _ => ?_)

/-- The list of processes that were started is set. -/
theorem held_setStarted (s : Sim) (l : List PItem) : heldOf b (s.setStarted l) + worthAll b s.startedList = heldOf b s + worthAll b l := by
  unfold Sim.setStarted Sim.startedList heldOf
  cases hs : s.started with
  | none => simp [hs]; omega
  | some l' => simp; omega

theorem rest_setStarted (s : Sim) (l : List PItem) : (s.setStarted l).points = s.points ∧ (s.setStarted l).trace = s.trace ∧ (s.setStarted l).w.rules = s.w.rules ∧ (s.setStarted l).events = s.events := by
  unfold Sim.setStarted
  cases s.started <;> exact ⟨rfl, rfl, rfl, rfl⟩

theorem thrift_setStarted {l : List PItem} (h : worthAll b l ≤ worthAll b s.startedList) : Thrift b s (s.setStarted l) := by
  obtain ⟨h1, h2, h3, h4⟩ := rest_setStarted s l
  have := held_setStarted (b := b) s l
  exact ⟨h1, h2, by omega, h3, fun ev d hv => by rw [h4] at hv ⊢; exact ⟨hv, id⟩⟩

theorem thrifty_activateProc {e : Ev} : Thrifty b (activateProc e) := by
  rcases activateProc_cases e with hp | hp <;> rw [hp]
  · exact thrifty_pure
  · intro s
    dsimp only
    split
    · exact thrift_refl s
    · exact thrifty_succeed s

theorem thrifty_envInteraction : Thrifty b envInteraction := fun s => by
  unfold envInteraction
  have h0 : Thrifty b (SimM.set (fun s => { s with w := { s.w with interaction := [] } })) := by thriftset
  cases s.w.env with
  | none => exact thrift_refl s
  | some env =>
    dsimp only
    split
    · exact thrifty_bind (thrifty_succeed (ev := s.envActivate)) (fun _ => h0) s
    · exact h0 s

theorem thrifty_renew {name : String} : Thrifty b (renewActivate name) := by unfold renewActivate; thrifty
theorem thrifty_envNext {pro : ℕ} : Thrifty b (envNext pro) := by unfold envNext; thrifty

theorem thrifty_startAutomatic {name : String} {i : ℕ} {d : Desc} (hd : worth b d = 0) : Thrifty b (startAutomatic name i d) := by
  unfold startAutomatic
  refine thrifty_bind (fun s => thrift_setStarted ?_) fun _ => ?_
  · simp [worthItem, hd]
  refine thrifty_bind thrifty_activateOf fun a => thrifty_bind thrifty_get fun busy => thrifty_ite (thrifty_bind thrifty_get fun old => ?_) (by thrifty)
  split <;> thrifty

theorem thrifty_automatic {name : String} : Thrifty b (automatic name) := fun s => by
  unfold automatic
  split
  · exact thrift_refl s
  · split
    · exact thrift_refl s
    · rename_i bu _ d hd
      have hn : worth b d = 0 := by
        unfold automaticFor at hd
        split at hd
        · cases hd; rfl
        · split at hd
          · cases hd; rfl
          · cases hd
        · cases hd
      have h0 : Thrift b s { s with w := { s.w with nextId := s.w.nextId + 1 } } := thrift_same rfl rfl rfl rfl rfl fun _ _ h => ⟨h, id⟩
      exact thrift_trans h0 (thrifty_startAutomatic hn _)

theorem thrifty_automaticAll : ∀ l : List String, Thrifty b (automaticAll l)
  | [] => thrifty_pure
  | _ :: r => thrifty_bind thrifty_automatic fun _ => thrifty_automaticAll r

theorem thrifty_notify (x : PItem) : Thrifty b (notify x) := by
  cases x with
  | procedural => exact thrifty_throw
  | gen name i d =>
    refine thrifty_bind thrifty_activateOf fun a => thrifty_bind thrifty_get fun busy => thrifty_ite (thrifty_bind thrifty_get fun old => ?_) (by thrifty)
    split <;> thrifty

theorem thrifty_notifyAll : ∀ l : List PItem, Thrifty b (notifyAll l)
  | [] => thrifty_pure
  | x :: r => thrifty_bind (thrifty_notify x) fun _ => thrifty_notifyAll r

theorem thrifty_procsReturned {v : SVal} : Thrifty b (procsReturned v) := fun s => by
  unfold procsReturned
  split
  · exact ⟨rfl, rfl, by show worthAll b s.w.procs + 0 ≤ _; unfold heldOf; omega, rfl, fun _ _ h => ⟨h, id⟩⟩
  · exact thrift_refl s

/-! ## Code in general -/

/-- The code can be paid for with `N`, and afterwards there is `Q`. -/
def Spends (b : String) (X : ℕ → Prop) (N : ℕ) (s : Sim) (m : SimM A) (Q : ℕ → Sim → A → Prop) : Prop :=
  Solvent b X N s → ∃ N', Solvent b X N' (m s).1 ∧ ∀ a, (m s).2 = .ok a → Q N' (m s).1 a

variable {Q : ℕ → Sim → A → Prop} {Q' : ℕ → Sim → B → Prop}

theorem spends_bind {m : SimM A} {f : A → SimM B} (hm : Spends b X N s m Q) (hf : ∀ N' s' a, Q N' s' a → Spends b X N' s' (f a) Q') : Spends b X N s (m >>= f) Q' := by
  intro h
  obtain ⟨N1, h1, h2⟩ := hm h
  show ∃ N', Solvent b X N' (SimM.bind m f s).1 ∧ ∀ a, (SimM.bind m f s).2 = .ok a → Q' N' (SimM.bind m f s).1 a
  unfold SimM.bind
  rcases hr : m s with ⟨s1, e | a⟩
  · rw [hr] at h1
    exact ⟨N1, h1, fun _ h => by cases h⟩
  · rw [hr] at h1 h2
    exact hf N1 s1 a (h2 a rfl) h1

theorem spends_thrifty {m : SimM A} (hm : Thrifty b m) : Spends b X N s m (fun N' s' _ => N' = N ∧ Thrift b s s') := fun h =>
  ⟨N, solvent_thrift h (hm s), fun _ _ => ⟨rfl, hm s⟩⟩

theorem spends_then {m : SimM A} {f : A → SimM B} (hm : Thrifty b m) (hf : ∀ s' a, Thrift b s s' → Spends b X N s' (f a) Q') : Spends b X N s (m >>= f) Q' :=
  spends_bind (spends_thrifty hm) fun N' s' a h => by obtain ⟨rfl, h⟩ := h; exact hf s' a h

theorem spends_get {f : Sim → A} {g : A → SimM B} (h : Spends b X N s (g (f s)) Q') : Spends b X N s (SimM.get f >>= g) Q' := h

theorem spends_pure {a : A} (h : Q N s a) : Spends b X N s (pure a) Q := fun hs => ⟨N, hs, fun _ h' => by cases h'; exact h⟩
theorem spends_throw {e : PyErr} : Spends b X N s (SimM.throw e) Q := fun hs => ⟨N, hs, fun _ h' => by cases h'⟩

/-- A new process, with its share. -/
theorem spends_process {pt : Pt} (h : PtPays b n s.w pt) (hl : n ≤ N) : Spends b X N s (process pt) (fun N' s' _ => N' = N - n) := by
  intro hs
  have h1 : Thrift b s (s.alloc ⟨Option.none, false, some []⟩) := thrift_alloc (fun _ h => by cases h) s
  have h2 := thrift_trans h1 (thrift_timer (E := ⟨some (.ok .nothing), false, some [.resume s.next]⟩) (fun _ h => by cases h) (s.alloc ⟨Option.none, false, some []⟩) (s.next + 1) true 0)
  obtain ⟨L, g1, g2, g3, g4⟩ := solvent_thrift hs h2
  refine ⟨N - n, ⟨List.replicate n s.next ++ L, fun q pt' hq hx => ?_, fun ev d hv => ?_, ?_, g4⟩, fun _ _ => rfl⟩
  · have hq : fset s.points s.next (some pt) q = some pt' := hq
    rw [List.count_append]
    by_cases he : q = s.next
    · subst he
      rw [fset_same] at hq
      cases hq
      exact ptPays_le h (by rw [List.count_replicate_self]; omega)
    · rw [fset_other _ _ he] at hq
      exact ptPays_le (g1 q pt' hq hx) (by omega)
  · rw [List.count_append]
    exact (g2 ev d hv).imp id fun h => by omega
  · rw [List.length_append, List.length_replicate]
    have g3 : answersOf b s.trace + L.length + heldOf b s + N ≤ requestsOf s.w.rules b s.trace := g3
    show answersOf b s.trace + (n + L.length) + heldOf b s + (N - n) ≤ requestsOf s.w.rules b s.trace
    omega

theorem answersOf_append (l : List (ℚ × Ev)) (q : ℚ) (e : Ev) : answersOf b (l ++ [(q, e)]) = answersOf b l + price b e := by
  unfold answersOf price
  rw [List.countP_append, List.countP_singleton]

theorem requestsOf_append (rules : CRules) (l : List (ℚ × Ev)) (q : ℚ) (e : Ev) : requestsOf rules b (l ++ [(q, e)]) = requestsOf rules b l + requestsBy rules b e := by
  simp [requestsOf]

/-- A report. -/
theorem spends_print {e : Ev} (h : price b e + m ≤ N + requestsBy s.w.rules b e) : Spends b X N s (printEvent e) (fun N' s' _ => N' = m ∧ s'.w = s.w) := by
  intro hs
  rcases printEvent_cases e with ⟨hu, hp⟩ | ⟨_, hp⟩ <;> rw [hp]
  · have h0 : requestsBy s.w.rules b e = 0 := by unfold requestsBy; rw [hu]
    exact ⟨m, solvent_le hs (by omega), fun _ _ => ⟨rfl, rfl⟩⟩
  · obtain ⟨L, g1, g2, g3, g4⟩ := hs
    refine ⟨m, ⟨L, g1, g2, ?_, fun l hl => ?_⟩, fun _ _ => ⟨rfl, rfl⟩⟩
    · show answersOf b (s.trace ++ [(s.now, e)]) + L.length + heldOf b s + m ≤ requestsOf s.w.rules b (s.trace ++ [(s.now, e)])
      rw [answersOf_append, requestsOf_append]
      omega
    · have hl : l <+: s.trace ++ [(s.now, e)] := hl
      show answersOf b l ≤ requestsOf s.w.rules b l
      rcases List.prefix_concat_iff.1 hl with rfl | hl
      · rw [answersOf_append, requestsOf_append]
        omega
      · exact g4 l hl

/-- What is left for a process when it waits or ends. -/
def ResPays (b : String) (N : ℕ) (s : Sim) : Res → Prop
  | .wait _ pt => PtPays b N s.w pt
  | .done v => ∀ d, v = .cont d → worth b d ≤ N

theorem spends_mach {w : Mach} {f : Unit → SimM A} (hp : Persist s.w w) (hl : worthAll b w.procs + m ≤ worthAll b s.w.procs + N) (h : Spends b X m { s with w := w } (f ()) Q) :
    Spends b X N s (SimM.set (fun s => { s with w := w }) >>= f) Q := fun hs => h (solvent_mach hs hp hl)

theorem spends_localRun {name : String} {o : Out Mach YV Unit} (h : Pays b N s.w o) : Spends b X N s (localRun name o) (ResPays b) := by
  cases o with
  | yield w y k =>
    cases y with
    | ev e =>
      obtain ⟨h1, m, h2, h3⟩ := h
      refine spends_mach h1 h2 (spends_get (spends_then thrifty_timeout fun s' t ht => spends_pure ?_))
      exact fun w' hw' => h3 w' (persist_trans (persist_same ht.rules) hw')
    | cont d => exact spends_mach h.1 (m := worth b d) h.2 (spends_pure fun d' hd => by cases hd; exact le_rfl)
    | procs => exact spends_mach h.1 (m := 0) h.2 (spends_pure fun d' hd => by cases hd)
    | nothing => exact spends_mach h.1 (m := 0) h.2 (spends_pure fun d' hd => by cases hd)
  | ret w a =>
    obtain ⟨h1, m, h2, _⟩ := h
    exact spends_mach h1 h2 (spends_pure fun d' hd => by cases hd)
  | raise w x => exact spends_mach h.1 (m := 0) h.2 spends_throw

theorem spends_localResume {name : String} {e : Ev} {k : Mach → Out Mach YV Unit} {x : Except PyErr SVal} (h : PtPays b n s.w (.localWait name e k)) (hn : n ≤ N) :
    Spends b X N s (localResume name e k x) (ResPays b) := by
  unfold localResume
  split
  · exact spends_pure fun d hd => by cases hd
  · exact spends_throw
  · obtain ⟨m0, h0, _⟩ := h s.w (persist_refl _)
    refine spends_bind (spends_print (m := N + requestsBy s.w.rules b e - price b e) (by omega)) fun N' s1 _ h1 => ?_
    obtain ⟨rfl, h1⟩ := h1
    refine spends_then thrifty_activateProc fun s2 _ h2 => spends_then thrifty_envInteraction fun s3 _ h3 => spends_get (spends_localRun ?_)
    have hr : s3.w.rules = s.w.rules := by rw [h3.rules, h2.rules, h1]
    obtain ⟨m, g1, g2⟩ := h s3.w (persist_same hr)
    rw [hr] at g1
    exact affords_le g2 (by omega)

theorem spends_procCycle {pt : Pt} (h : ∀ (N : ℕ) (s : Sim), PtPays b N s.w pt) : Spends b X N s (procCycle C pt) (ResPays b) :=
  spends_get (spends_bind (spends_process (n := 0) (fun w' _ => pays_procedural C _ w') (Nat.zero_le _)) fun N' s' _ _ => spends_pure (h N' s'))

theorem spends_spins {k : ℕ} : Spends b X N s (procSpins k) (ResPays b) := spends_then thrifty_timeout fun _ _ _ => spends_pure trivial

theorem spends_procLoop : Spends b X N s procLoop (ResPays b) := by
  unfold procLoop
  refine spends_get ?_
  split
  · refine spends_bind (Q := fun _ _ _ => True) (fun hs => ⟨N, solvent_thrift hs (thrift_setStarted (worthAll_remove _).le), fun _ _ => trivial⟩) fun N' s' _ _ => ?_
    exact spends_get (spends_then (thrifty_notifyAll _) fun _ _ _ => spends_spins)
  · refine spends_get (spends_get ?_)
    split
    · exact spends_spins
    · exact spends_pure trivial

/-- The process that is taken has its worth. -/
theorem worth_takeFor {name : String} : ∀ {l : List PItem} {i : ℕ} {d : Desc} {r : List PItem}, takeFor name l = .ok (some ((i, d), r)) → worthAll b l = worth b d + worthAll b r
  | [], _, _, _, h => by cases h
  | .procedural :: l, i, d, r, h => by
    unfold takeFor at h
    split at h
    · cases h
    · rcases hr : takeFor name l with e | _ | ⟨⟨i', d'⟩, r'⟩ <;> rw [hr] at h <;> cases h
      simp [worthItem, worth_takeFor hr]
  | .gen n' i' d' :: l, i, d, r, h => by
    unfold takeFor at h
    split at h
    · cases h; rfl
    · rcases hr : takeFor name l with e | _ | ⟨⟨i2, d2⟩, r2⟩ <;> rw [hr] at h <;> cases h
      simp only [worthAll_cons, worthItem, worth_takeFor hr]
      omega

theorem spends_start (hn : MovesForward C) {name : String} {d : Desc} {g : ℕ → Pt} (hl : worth b d ≤ N) (hg : ∀ (p N : ℕ) (s : Sim), PtPays b N s.w (g p)) :
    Spends b X N s (process (.localNew name (d.run C)) >>= fun pro => pure (.wait pro (g pro))) (ResPays b) :=
  spends_bind (spends_process (n := worth b d) (fun w' _ => pays_run hn d w') hl) fun _ _ _ _ => spends_pure (hg _ _ _)

theorem spends_extraLoop (hn : MovesForward C) {name : String} : Spends b X N s (extraLoop C name) (ResPays b) := by
  unfold extraLoop
  refine spends_get ?_
  split
  · exact spends_throw
  · refine spends_then (by thriftset) fun _ _ _ => spends_then thrifty_activateOf fun _ _ _ => spends_get ?_
    split
    · exact spends_then thrifty_renew fun _ _ _ => spends_pure trivial
    · exact spends_pure trivial
  · rename_i i d rest hd
    have hw := worth_takeFor (b := b) hd
    refine spends_bind (Q := fun N' _ _ => N' = N + worth b d) (fun hs => ⟨N + worth b d, ?_, fun _ _ => rfl⟩) fun N' s' _ hN => ?_
    · obtain ⟨L, g1, g2, g3, g4⟩ := hs
      obtain ⟨h1, h2, h3, h4⟩ := rest_setStarted s rest
      have h5 := held_setStarted (b := b) s rest
      refine ⟨L, fun q pt hq hx => ptPays_persist (g1 q pt ?_ hx) (persist_same h3), fun ev d' hv => ?_, ?_, fun l hl => ?_⟩
      · rw [← h1]; exact hq
      · have hv : ((s.setStarted rest).events ev).value = _ := hv
        show ((s.setStarted rest).events ev).callbacks = _ ∨ _
        rw [h4] at hv ⊢
        exact g2 ev d' hv
      · show answersOf b (s.setStarted rest).trace + L.length + heldOf b (s.setStarted rest) + (N + worth b d) ≤ requestsOf (s.setStarted rest).w.rules b (s.setStarted rest).trace
        rw [h2, h3]
        omega
      · have hl : l <+: (s.setStarted rest).trace := hl
        show answersOf b l ≤ requestsOf (s.setStarted rest).w.rules b l
        rw [h2] at hl
        rw [h3]
        exact g4 l hl
    · subst hN
      refine spends_then thrifty_activateOf fun _ _ _ => spends_get ?_
      split
      · exact spends_start hn (by omega) fun _ _ _ => trivial
      · exact spends_then thrifty_succeed fun _ _ _ => spends_start hn (by omega) fun _ _ _ => trivial

theorem spends_extraAfterMain (hn : MovesForward C) {name : String} {pro : ℕ} {x : Except PyErr SVal} (hx : ∀ d, x = .ok (.cont d) → worth b d ≤ N) :
    Spends b X N s (extraAfterMain C name pro x) (ResPays b) := by
  unfold extraAfterMain
  split
  · refine spends_get ?_
    split
    · exact spends_extraLoop hn
    · exact spends_then thrifty_interrupt fun _ _ _ => spends_extraLoop hn
  · exact spends_throw
  · exact spends_start hn (g := fun _ => .extraCont name) (hx _ rfl) fun _ _ _ => trivial
  · exact spends_extraLoop hn

theorem spends_extraAfterCont (hn : MovesForward C) {name : String} {x : Except PyErr SVal} : Spends b X N s (extraAfterCont C name x) (ResPays b) := by
  unfold extraAfterCont
  split
  · exact spends_extraLoop hn
  · exact spends_throw
  · exact spends_extraLoop hn

theorem price_env (e : EnvEvent) : price b e.ev = 0 := by
  refine price_free ?_
  unfold EnvEvent.ev
  dsimp only
  split <;> rfl

theorem spends_envIter {e : EnvEvent} {k : Mach → Out Mach EnvEvent Unit} (h : ∀ w, (k w).Moves Passive w) : Spends b X N s (envIter e k) (ResPays b) :=
  spends_bind (spends_process (n := 0) (price_env e) (Nat.zero_le _)) fun _ _ _ _ => spends_get (spends_then thrifty_anyOf fun _ _ _ => spends_pure h)

theorem spends_w {m : SimM A} {w : Mach} (hw : Passive s.w w) (hm : Spends b X N { s with w := w } m Q) (hs : Solvent b X N s) :
    ∃ N', Solvent b X N' (m { s with w := w }).1 ∧ ∀ a, (m { s with w := w }).2 = .ok a → Q N' (m { s with w := w }).1 a :=
  hm (solvent_mach hs hw.persist (by rw [hw.2]))

theorem spends_envStart : Spends b X N s (envStart C) (ResPays b) := fun hb => by
  cases ha : s.envArgs with
  | none =>
    have : envStart C s = (s, .error .type) := by simp only [envStart, ha]
    rw [this]; exact ⟨N, hb, fun r hr => by cases hr⟩
  | some a =>
    have hk := passive_env C.upper a.stimuli a.triggers a.times a.startTime s.w
    rcases ho : envProcess (fun env (w : Mach) => { w with env := some env }) envOf C.upper a.stimuli a.triggers a.times a.startTime s.w with ⟨w, e, k⟩ | ⟨w, r⟩ | ⟨w, x⟩
    · rw [ho] at hk
      have : envStart C s = envIter e k { s with w := w } := by simp only [envStart, ha, ho]
      rw [this]; exact spends_w hk.1 (spends_envIter hk.2) hb
    · rw [ho] at hk
      have : envStart C s = (SimM.throw .runtime : SimM Res) { s with w := w } := by simp only [envStart, ha, ho]; rfl
      rw [this]; exact spends_w hk spends_throw hb
    · rw [ho] at hk
      have : envStart C s = (SimM.throw x : SimM Res) { s with w := w } := by simp only [envStart, ha, ho]; rfl
      rw [this]; exact spends_w hk spends_throw hb

theorem spends_envAdvance {k : Mach → Out Mach EnvEvent Unit} (h : ∀ w, (k w).Moves Passive w) : Spends b X N s (envAdvance k) (ResPays b) := fun hb => by
  have hk := h s.w
  unfold envAdvance
  split
  · rename_i w _ ho; rw [ho] at hk; exact spends_w (m := pure (Res.done .nothing)) (Q := ResPays b) hk (spends_pure fun d hd => by cases hd) hb
  · rename_i w x ho; rw [ho] at hk; exact spends_w (m := (SimM.throw x : SimM Res)) hk spends_throw hb
  · rename_i w e k' ho
    rw [ho] at hk
    exact spends_w hk.1 (spends_then (thrifty_automaticAll _) fun _ _ _ => spends_envIter hk.2) hb

theorem spends_envProcStart {e : Ev} (he : price b e = 0) : Spends b X N s (envProcStart e) (ResPays b) := fun hb => by
  unfold envProcStart
  have h1 := thrifty_timeout (b := b) (d := e.time - s.now) s
  split
  · rename_i s1 t h
    rw [h] at h1
    exact ⟨N, solvent_thrift hb h1, fun r hr => by cases hr; exact he⟩
  · rename_i s1 x h
    rw [h] at h1
    exact spends_then (f := fun _ => SimM.throw x) thrifty_activateProc (fun _ _ _ => spends_throw) (solvent_thrift hb h1)

theorem spends_envProcResume {e : Ev} {x : Except PyErr SVal} (he : price b e = 0) : Spends b X N s (envProcResume e x) (ResPays b) := by
  unfold envProcResume
  split
  · exact spends_then thrifty_activateProc fun _ _ _ => spends_pure fun d hd => by cases hd
  · exact spends_then thrifty_activateProc fun _ _ _ => spends_throw
  · exact spends_bind (spends_print (m := N) (by omega)) fun _ _ _ _ => spends_then thrifty_activateProc fun _ _ _ => spends_pure fun d hd => by cases hd

/-- The code of a process, with what it has. -/
theorem spends_code (hn : MovesForward C) {pt : Pt} {x : Except PyErr SVal} (hp : PtPays b n s.w pt) (hl : n ≤ N) (hx : ∀ d, x = .ok (.cont d) → worth b d ≤ N) :
    Spends b X N s (code C pt x) (ResPays b) := by
  unfold code
  split
  · exact spends_procCycle fun _ _ => trivial
  · exact spends_then thrifty_procsReturned fun _ _ _ => spends_procLoop
  · exact spends_spins
  · split
    · exact spends_procCycle fun _ _ => trivial
    · exact spends_spins
  · exact spends_then thrifty_procsReturned fun _ _ _ => spends_then thrifty_newEvent fun _ _ _ => spends_then (by thriftset) fun _ _ _ => spends_procLoop
  · exact spends_extraLoop hn
  · exact spends_then thrifty_renew fun _ _ _ => spends_extraLoop hn
  · exact spends_extraAfterMain hn hx
  · exact spends_extraAfterCont hn
  · exact spends_get (spends_localRun (affords_le (hp s.w (persist_refl _)) hl))
  · exact spends_localResume hp hl
  · exact spends_envStart
  · exact spends_then thrifty_envNext fun _ _ _ => spends_envAdvance hp
  · exact spends_envProcStart hp
  · exact spends_envProcResume hp
  · exact spends_throw

/-! ## Processes that are resumed -/

theorem solvent_waits {ev : ℕ} {pt : Pt} (h : Solvent b (fun q => X q ∨ q = p) N s) (hp : PtPays b N s.w pt) : Solvent b X 0 (s.waits p ev pt) := by
  have ht : Thrift b ({ s with points := fset s.points p (some pt), target := fset s.target p ev } : Sim) (s.waits p ev pt) := thrift_addCallback _ _ _
  refine solvent_thrift ?_ ht
  obtain ⟨L, g1, g2, g3, g4⟩ := h
  refine ⟨List.replicate N p ++ L, fun q pt' hq hx => ?_, fun e d hv => ?_, ?_, g4⟩
  · have hq : fset s.points p (some pt) q = some pt' := hq
    rw [List.count_append]
    by_cases he : q = p
    · subst he
      rw [fset_same] at hq
      cases hq
      exact ptPays_le hp (by rw [List.count_replicate_self]; omega)
    · rw [fset_other _ _ he] at hq
      exact ptPays_le (g1 q pt' hq fun h => h.elim hx he) (by omega)
  · rw [List.count_append]
    exact (g2 e d hv).imp id fun h => by omega
  · rw [List.length_append, List.length_replicate]
    have : heldOf b ({ s with points := fset s.points p (some pt), target := fset s.target p ev } : Sim) = heldOf b s := rfl
    rw [this]
    dsimp only
    omega

theorem solvent_ends {v : Except PyErr SVal} (h : Solvent b (fun q => X q ∨ q = p) N s) (hv : ∀ d, v = .ok (.cont d) → worth b d ≤ N) : Solvent b X 0 (s.ends p v) := by
  obtain ⟨L, g1, g2, g3, g4⟩ := h
  refine ⟨List.replicate N p ++ L, fun q pt' hq hx => ?_, fun e d hd => ?_, ?_, g4⟩
  · have hq : fset s.points p Option.none q = some pt' := hq
    rw [List.count_append]
    by_cases he : q = p
    · subst he
      rw [fset_same] at hq
      cases hq
    · rw [fset_other _ _ he] at hq
      exact ptPays_le (g1 q pt' hq fun h => h.elim hx he) (by omega)
  · have hd : (fset s.events p { s.events p with value := some v } e).value = _ := hd
    show (fset s.events p { s.events p with value := some v } e).callbacks = _ ∨ _
    rw [List.count_append]
    by_cases he : e = p
    · subst he
      rw [fset_same] at hd
      have := hv d (Option.some.inj hd)
      exact .inr (by rw [List.count_replicate_self]; omega)
    · rw [fset_other _ _ he] at hd ⊢
      exact (g2 e d hd).imp id fun h => by omega
  · rw [List.length_append, List.length_replicate]
    have : heldOf b (s.ends p v) = heldOf b s := rfl
    rw [this]
    show answersOf b s.trace + (N + L.length) + heldOf b s + 0 ≤ requestsOf s.w.rules b s.trace
    omega

theorem solvent_resume (hn : MovesForward C) {pt : Pt} {x : Except PyErr SVal} (h : Solvent b (fun _ => False) N s) (hp : s.points p = some pt) (hi : Inv s) (hx : ∀ d, x = .ok (.cont d) → worth b d ≤ N) :
    Solvent b (fun _ => False) 0 (s.resume C p x) := by
  rw [resume_eq C hp]
  obtain ⟨n, h1, h2⟩ := solvent_free h (e := p) fun d hd => by
    rw [hi.live p (by rw [hp]; rfl)] at hd; cases hd
  obtain ⟨N', h3, h4⟩ := spends_code (X := fun q => False ∨ q = p) hn (x := x) (h1 pt hp id) (Nat.le_add_left n N) (fun d hd => le_trans (hx d hd) (Nat.le_add_right _ _)) h2
  rcases hcode : code C pt x s with ⟨s1, e | r⟩
  · rw [hcode] at h3
    exact solvent_ends h3 fun d hd => by cases hd
  · rw [hcode] at h3 h4
    have h4 := h4 r rfl
    cases r with
    | wait ev pt' => exact solvent_waits h3 h4
    | done v => exact solvent_ends h3 fun d hd => by cases hd; exact h4 d rfl

/-! ## Steps -/

theorem solvent_callback (hn : MovesForward C) {ev : ℕ} {v : Except PyErr SVal} {cb : Callback} {l : List Callback} (h : Solvent b (fun _ => False) N s) (hg : Good C.ruleFiring s)
    (hp : Pending ev v (cb :: l) s) (hx : ∀ d, v = .ok (.cont d) → ∀ p, cb = .resume p → worth b d ≤ N) :
    Solvent b (fun _ => False) 0 (callback C ev v s cb) ∧ ((∀ p, cb ≠ .resume p) → (∀ p, cb ≠ .interrupt p) → Solvent b (fun _ => False) N (callback C ev v s cb)) := by
  cases cb with
  | resume p =>
    refine ⟨?_, fun h => absurd rfl (h p)⟩
    obtain ⟨_, ht, pt, hpt, _⟩ := hp.res p (.head _)
    rcases v with x | v
    · exact solvent_resume hn (solvent_thrift h (thrift_thin (thin_defuse (ev := ev)) rfl rfl rfl)) hpt (good_defuse (ev := ev) hg).1.1 fun d hd => by cases hd
    · exact solvent_resume hn h hpt hg.1.1 fun d hd => hx d hd p rfl
  | interrupt p =>
    refine ⟨?_, fun _ h => absurd rfl (h p)⟩
    obtain ⟨rfl, _⟩ := hp.intr p (.head _)
    simp only [callback]
    split
    · exact solvent_le h (Nat.zero_le _)
    · have h1 := solvent_thrift h (thrift_thin (thin_drop (ev := s.target p) (cb := .resume p) (by simp)) rfl rfl rfl)
      cases hpt : s.points p with
      | none =>
        have : (s.dropCallback (s.target p) (.resume p)).resume C p (.error .interrupt) = s.dropCallback (s.target p) (.resume p) := by
          unfold Sim.resume
          have : (s.dropCallback (s.target p) (.resume p)).points p = Option.none := hpt
          rw [this]
        rw [this]
        exact solvent_le h1 (Nat.zero_le _)
      | some pt => exact solvent_resume hn h1 (pt := pt) hpt (good_drop (by simp) hg).1.1 fun d hd => by cases hd
  | check d =>
    suffices hs : Solvent b (fun _ => False) N (callback C ev v s (.check d)) from ⟨solvent_le hs (Nat.zero_le _), fun _ _ => hs⟩
    simp only [callback]
    split
    · exact h
    · rcases v with x | v
      · exact solvent_thrift h (thrift_trans (thrift_thin (thin_defuse (ev := ev)) rfl rfl rfl) (thrift_trigger (fun d hd => by cases hd) _ _))
      · exact solvent_thrift h (thrift_trigger (fun d hd => by cases hd) _ _)
  | build d x y =>
    have hs : Solvent b (fun _ => False) N (callback C ev v s (.build d x y)) := solvent_thrift h (thrift_trans (thrift_thin (thin_drop (ev := x) (cb := .check d) (by simp)) rfl rfl rfl)
      (thrift_thin (thin_drop (ev := y) (cb := .check d) (by simp)) rfl rfl rfl))
    exact ⟨solvent_le hs (Nat.zero_le _), fun _ _ => hs⟩
  | stop => exact ⟨solvent_le h (Nat.zero_le _), fun _ _ => h⟩

theorem solvent_callbacks (hn : MovesForward C) {ev : ℕ} {v : Except PyErr SVal} : ∀ (l : List Callback) {N : ℕ} {s : Sim}, Solvent b (fun _ => False) N s → Good C.ruleFiring s → Pending ev v l s →
    (∀ d, v = .ok (.cont d) → worth b d ≤ N ∨ ∀ p, .resume p ∉ l) → (∀ l1 p l2, l = l1 ++ .resume p :: l2 → ∀ q, .resume q ∉ l2) → Solvent b (fun _ => False) 0 (l.foldl (callback C ev v) s)
  | [], _, s, h, _, _, _, _ => solvent_le h (Nat.zero_le _)
  | cb :: l, N, s, h, hg, hp, hx, hone => by
    obtain ⟨h1, h2⟩ := solvent_callback hn h hg hp fun d hd p hcb => (hx d hd).resolve_right fun h => h p (hcb ▸ .head _)
    obtain ⟨g1, g2, _⟩ := good_callback C hg hp
    have hone' : ∀ l1 p l2, l = l1 ++ .resume p :: l2 → ∀ q, .resume q ∉ l2 := fun l1 p l2 hl => hone (cb :: l1) p l2 (by rw [hl]; rfl)
    by_cases hr : ∃ p, cb = .resume p
    · obtain ⟨p, rfl⟩ := hr
      exact solvent_callbacks hn l h1 g1 g2 (fun _ _ => .inr (hone [] p l rfl)) hone'
    · by_cases hi : ∃ p, cb = .interrupt p
      · obtain ⟨p, rfl⟩ := hi
        obtain ⟨rfl, _⟩ := hp.intr p (.head _)
        exact solvent_callbacks hn l h1 g1 g2 (fun d hd => by cases hd) hone'
      · refine solvent_callbacks hn l (h2 (fun p hp => hr ⟨p, hp⟩) fun p hp => hi ⟨p, hp⟩) g1 g2 (fun d hd => (hx d hd).imp id fun h p hm => h p (.tail _ hm)) hone'

theorem thrift_taken (s : Sim) (en : Entry) (q : List Entry) : Thrift b s (s.taken en q) := thrift_thin (thin_taken s en q) rfl rfl rfl

theorem solvent_called (hn : MovesForward C) {en : Entry} {q : List Entry} (hf : Fine C.ruleFiring s) (hone : ∀ ev p q, .resume p ∈ s.cbs ev → .resume q ∈ s.cbs ev → p = q)
    (h : Solvent b (fun _ => False) 0 s) (hq : s.queue = en :: q) (hstop : .stop ∉ s.cbs en.ev) : Solvent b (fun _ => False) 0 (s.called C en q) := by
  have h1 := solvent_thrift h (thrift_taken s en q)
  have hft := fine_taken hf hq
  unfold Sim.called
  rcases hf.1.grid en (by rw [hq]; exact .head _) with hg | hg
  · have hlist : ∀ l1 p l2, s.cbs en.ev = l1 ++ .resume p :: l2 → ∀ q, .resume q ∉ l2 := fun l1 p l2 hl q hm => by
      have h1 : Callback.resume p ∈ s.cbs en.ev := by rw [hl]; simp
      have h2 : Callback.resume q ∈ s.cbs en.ev := by rw [hl]; simp [hm]
      have := hone _ _ _ h1 h2
      subst this
      have := hf.1.once en.ev p
      rw [hl, List.count_append, List.count_cons_self] at this
      have := List.count_pos_iff.2 hm
      omega
    have hgood : Good C.ruleFiring (s.taken en q) := ⟨⟨hft.1, hg⟩, hft.2⟩
    by_cases hc : ∃ d, (s.events en.ev).value = some (.ok (.cont d))
    · obtain ⟨d, hd⟩ := hc
      cases hcb : (s.events en.ev).callbacks with
      | none => rw [show s.cbs en.ev = [] from by simp [Sim.cbs, hcb]]; exact h1
      | some l =>
        have h2 : Solvent b (fun _ => False) (worth b d) (s.taken en q) := by
          obtain ⟨L, g1, g2, g3, g4⟩ := h
          have hw : worth b d ≤ L.count en.ev := (g2 en.ev d hd).resolve_left fun h => by rw [hcb] at h; cases h
          refine ⟨L.filter (fun q => q ≠ en.ev), fun r pt hr hx => ?_, fun ev d' hv => ?_, ?_, g4⟩
          · have hr : s.points r = some pt := hr
            have hne : r ≠ en.ev := by
              rintro rfl
              rw [hf.1.live _ (by rw [hr]; rfl)] at hd; cases hd
            rw [List.count_filter (by simpa using hne)]
            exact g1 r pt hr hx
          · by_cases he : ev = en.ev
            · refine .inl ?_
              subst he
              show (fset s.events en.ev { s.events en.ev with callbacks := Option.none } en.ev).callbacks = _
              rw [fset_same]
            · have hv : (fset s.events en.ev { s.events en.ev with callbacks := Option.none } ev).value = _ := hv
              show (fset s.events en.ev { s.events en.ev with callbacks := Option.none } ev).callbacks = _ ∨ _
              rw [fset_other _ _ he] at hv ⊢
              rw [List.count_filter (by simpa using he)]
              exact g2 ev d' hv
          · have := length_without L en.ev
            show answersOf b s.trace + (L.filter (fun q => q ≠ en.ev)).length + heldOf b s + worth b d ≤ requestsOf s.w.rules b s.trace
            omega
        refine solvent_callbacks hn (s.cbs en.ev) h2 hgood (pending_taken hf.1 hq) (fun d' hd' => .inl ?_) hlist
        rw [hd] at hd'
        cases hd'
        exact le_rfl
    · refine solvent_callbacks hn (s.cbs en.ev) h1 hgood (pending_taken hf.1 hq) (fun d hd => ?_) hlist
      cases hv : (s.events en.ev).value with
      | none => rw [hv] at hd; cases hd
      | some u => rw [hv] at hd; exact (hc ⟨d, by rw [hv]; exact congrArg some hd⟩).elim
  · rw [show s.cbs en.ev = [] from by simp [Sim.cbs, hg.resolve_left hstop]]; exact h1

theorem solvent_step (hn : MovesForward C) (hf : Fine C.ruleFiring s) (hone : ∀ ev p q, .resume p ∈ s.cbs ev → .resume q ∈ s.cbs ev → p = q) (h : Solvent b (fun _ => False) 0 s)
    (hs : Stepped.leads (s.step C) s') : Solvent b (fun _ => False) 0 s' := by
  rcases step_cases (C := C) (s := s) rfl with ⟨h0, _⟩ | ⟨en, q, hq, ⟨_, h0⟩ | ⟨hst, h0 | ⟨x, h0⟩⟩⟩ <;> rw [h0] at hs <;> rcases hs with hs | hs | ⟨_, hs⟩ <;> cases hs
  · exact solvent_thrift h (thrift_taken s en q)
  · exact solvent_called hn hf hone h hq hst
  · exact solvent_called hn hf hone h hq hst

theorem thrift_setStop (s : Sim) (q : ℚ) : Thrift b s (s.setStop q).1 := by
  unfold Sim.setStop
  split
  · exact thrift_refl s
  · exact thrift_timer (E := ⟨some (.ok .nothing), false, some [.stop]⟩) (fun _ h => by cases h) s _ _ _

theorem solvent_compile (h : Solvent b X 0 s) : Solvent b X 0 (compileAtEnd C s).1 := by
  have h1 := persist_compileIn C s.w
  obtain ⟨_, h2, _⟩ := compileIn_rest C s.w
  unfold compileAtEnd
  split
  · rcases hci : compileIn C s.w with ⟨w', x | o⟩ <;> rw [hci] at h1 h2 <;> exact solvent_mach h h1 (by rw [h2])
  · exact h

/-! ## The beginning -/

variable {w : Mach} {args : Option EnvArgs} {t : ℚ}

theorem spends_initExtra (l : List String) : Spends b X N s (initExtra l) (fun N' _ _ => N' = N) := by
  induction l generalizing s with
  | nil => exact spends_pure rfl
  | cons n r ih =>
    unfold initExtra
    split
    · exact ih
    · refine spends_bind (spends_process (n := 0) trivial (Nat.zero_le _)) fun _ s' _ hN => ?_
      rw [Nat.sub_zero] at hN
      subst hN
      exact spends_then thrifty_newEvent fun _ _ _ => spends_then (by thriftset) fun _ _ _ => ih

theorem solvent_init (hw : worthAll b w.procs = 0) : Solvent b (fun _ => False) 0 (Sim.init w args t) := by
  have h0 : Solvent b (fun _ => False) 0 (Sim.blank w args t) := by
    refine ⟨[], (fun q pt hq => by cases hq), (fun ev d hv => by cases hv), ?_, (fun l hl => by rw [List.prefix_nil.1 hl]; exact Nat.zero_le _)⟩
    show 0 + 0 + (worthAll b w.procs + 0) + 0 ≤ 0
    omega
  obtain ⟨N', h1, _⟩ := spends_bind (Q' := fun _ _ _ => True) (spends_process (n := 0) (pt := .procNew) trivial (Nat.zero_le _)) (fun N1 s1 _ _ => spends_bind (spends_initExtra (w.bufs.map Prod.fst)) fun N2 s2 _ _ => by
    show Spends b (fun _ => False) N2 s2 (if w.env.isSome then do let _ ← process .envNew; pure () else pure () : SimM Unit) _
    split
    · exact spends_bind (spends_process (n := 0) trivial (Nat.zero_le _)) fun _ _ _ _ => spends_pure trivial
    · exact spends_pure trivial) h0
  exact solvent_le h1 (Nat.zero_le _)

/-! ## All states -/

theorem solvent_reachable (hn : MovesForward C) (hb : (w.bufs.map Prod.fst).Nodup) (hw : worthAll b w.procs = 0) (h : Reachable C w args t s) : Solvent b (fun _ => False) 0 s := by
  induction h with
  | init => exact solvent_init hw
  | @stop s1 s2 q r hr hs ih =>
    have : s2 = (s1.setStop q).1 := by rw [hs]
    subst this
    exact solvent_thrift ih (thrift_setStop s1 q)
  | step hr hs ih => exact solvent_step hn (fine_reachable hr) (ready_reachable hb hr).poised.one ih (.inl hs)
  | stopped hr hs ih => exact solvent_step hn (fine_reachable hr) (ready_reachable hb hr).poised.one ih (.inr (.inl hs))
  | raised hr hs ih => exact solvent_step hn (fine_reachable hr) (ready_reachable hb hr).poised.one ih (.inr (.inr ⟨_, hs⟩))
  | @compile s1 s2 r hr hs ih =>
    have : s2 = (compileAtEnd C s1).1 := by rw [hs]
    subst this
    exact solvent_compile ih

theorem worthAll_asked (h : NothingAsked w) : worthAll b w.procs = 0 := by
  unfold NothingAsked at h
  generalize w.procs = l at h
  induction l with
  | nil => rfl
  | cons x r ih =>
    rw [worthAll_cons, ih fun n i d hm => h n i d (.tail _ hm)]
    cases x with
    | procedural => rfl
    | gen n i d =>
      rcases h n i d (.head _) with ⟨_, _, _, rfl⟩ | ⟨_, _, _, rfl⟩ | ⟨_, _, _, rfl⟩ <;> rfl

theorem answers_le (hn : MovesForward C) (hb : (w.bufs.map Prod.fst).Nodup) (hw : NothingAsked w) (h : Reachable C w args t s) {l : List (ℚ × Ev)} (hl : l <+: s.trace) :
    answersOf b l ≤ requestsOf s.w.rules b l := by
  obtain ⟨_, _, _, _, h4⟩ := solvent_reachable (b := b) hn hb (worthAll_asked hw) h
  exact h4 l hl

end Verif
