import Verif.Lemmas.SimReach
/-! # No process waits in vain -/
namespace Verif
open Verif.Spec

/-- Every process but those in `X` is going to be resumed by the event it waits for; events that have been triggered and not processed are
in the schedule; nobody waits for an event that stops `run`. -/
structure Awake (X : ℕ → Prop) (s : Sim) : Prop where
  woken : ∀ p pt, s.points p = some pt → ¬ X p → .resume p ∈ s.cbs (s.target p)
  queued : ∀ ev, (s.events ev).value.isSome → (s.events ev).callbacks.isSome → ∃ en ∈ s.queue, en.ev = ev
  fresh : ∀ ev, s.next ≤ ev → (s.events ev).callbacks = Option.none
  stops : ∀ ev, .stop ∈ s.cbs ev → (∀ p, .resume p ∉ s.cbs ev) ∧ (∀ n, (n, ev) ∉ s.activate) ∧ ev ≠ s.procActivate
  act : ∀ n a, (n, a) ∈ s.activate → a < s.next
  proc : s.procActivate < s.next

variable {X : ℕ → Prop} {s s' : Sim} {p : ℕ} {A B : Type}

theorem lt_of_open (h : Awake X s) {ev : ℕ} (he : (s.events ev).callbacks.isSome) : ev < s.next := by
  by_contra hc
  rw [h.fresh ev (not_lt.1 hc)] at he; cases he

theorem open_of_mem {ev : ℕ} {cb : Callback} (h : cb ∈ s.cbs ev) : (s.events ev).callbacks.isSome := by
  unfold Sim.cbs at h
  cases hc : (s.events ev).callbacks with
  | none => rw [hc] at h; simp at h
  | some l => rfl

/-- The general form of changes that wake no process and forget none. -/
theorem awake_move (h : Awake X s)
    (hp : ∀ p pt, s'.points p = some pt → ¬ X p → (s.points p = some pt ∧ s'.target p = s.target p) ∨ .resume p ∈ s'.cbs (s'.target p))
    (hc : ∀ ev p, .resume p ∈ s.cbs ev → .resume p ∈ s'.cbs ev)
    (hv : ∀ ev, (s'.events ev).value.isSome → (s'.events ev).callbacks.isSome →
      ((s.events ev).value.isSome ∧ (s.events ev).callbacks.isSome) ∨ ∃ en ∈ s'.queue, en.ev = ev)
    (hq : ∀ en ∈ s.queue, en ∈ s'.queue)
    (hf : ∀ ev, s'.next ≤ ev → (s'.events ev).callbacks = Option.none)
    (hs : ∀ ev, .stop ∈ s'.cbs ev → (∀ p, .resume p ∉ s'.cbs ev) ∧ (∀ n, (n, ev) ∉ s'.activate) ∧ ev ≠ s'.procActivate)
    (ha : ∀ n a, (n, a) ∈ s'.activate → a < s'.next) (hpr : s'.procActivate < s'.next) : Awake X s' := by
  refine ⟨fun p pt h1 h2 => ?_, fun ev h1 h2 => ?_, hf, hs, ha, hpr⟩
  · rcases hp p pt h1 h2 with ⟨h3, h4⟩ | h3
    · rw [h4]; exact hc _ _ (h.woken p pt h3 h2)
    · exact h3
  · rcases hv ev h1 h2 with ⟨h3, h4⟩ | h3
    · obtain ⟨en, h5, h6⟩ := h.queued ev h3 h4
      exact ⟨en, hq en h5, h6⟩
    · exact h3

/-- Nothing that matters here changes. -/
theorem awake_same (h : Awake X s) (h1 : s'.queue = s.queue) (h2 : s'.events = s.events) (h3 : s'.next = s.next) (h4 : s'.points = s.points) (h5 : s'.target = s.target)
    (h6 : s'.activate = s.activate) (h7 : s'.procActivate = s.procActivate) : Awake X s' := by
  have hc : ∀ ev, s'.cbs ev = s.cbs ev := fun ev => by unfold Sim.cbs; rw [h2]
  exact ⟨fun p pt hp hx => by rw [hc, h5]; exact h.woken p pt (by rw [← h4]; exact hp) hx, fun ev => by rw [h1, h2]; exact h.queued ev,
    fun ev => by rw [h2, h3]; exact h.fresh ev, fun ev => by rw [hc, h6, h7]; exact h.stops ev, fun n a => by rw [h6, h3]; exact h.act n a, by rw [h7, h3]; exact h.proc⟩

/-- A new event, which is scheduled if it has been triggered. -/
theorem awake_alloc {v : Option (Except PyErr SVal)} {d : Bool} {l : List Callback} (h : Awake X s) (hv : v = Option.none) (hl : .stop ∉ l) : Awake X (s.alloc ⟨v, d, some l⟩) := by
  subst hv
  refine awake_move h (fun p pt h1 _ => .inl ⟨h1, rfl⟩) (fun ev p hm => ?_) (fun ev h1 h2 => ?_) (fun _ h => h) (fun ev hev => ?_) (fun ev hs => ?_)
    (fun n a hm => (h.act n a hm).trans (Nat.lt_succ_self _)) (h.proc.trans (Nat.lt_succ_self _))
  · rw [cbs_alloc_old (Nat.ne_of_lt (lt_of_open h (open_of_mem hm)))]; exact hm
  · by_cases he : ev = s.next
    · subst he; rw [events_alloc_new] at h1; cases h1
    · rw [events_alloc_old he] at h1 h2; exact .inl ⟨h1, h2⟩
  · have : s.next + 1 ≤ ev := hev
    rw [events_alloc_old (by omega)]; exact h.fresh ev (by omega)
  · by_cases he : ev = s.next
    · subst he; rw [cbs_alloc_new] at hs; exact absurd hs hl
    · rw [cbs_alloc_old he] at hs ⊢; exact h.stops ev hs

theorem awake_schedule {ev : ℕ} {u : Bool} {d : ℚ} (h : Awake X s) : Awake X (s.schedule ev u d) :=
  awake_move h (fun p pt h1 _ => .inl ⟨h1, rfl⟩) (fun _ _ h => h) (fun _ h1 h2 => .inl ⟨h1, h2⟩) (fun en hen => (mem_insertEntry _ _ _).2 (.inr hen)) h.fresh h.stops h.act h.proc

theorem awake_timer {v : Option (Except PyErr SVal)} {d : Bool} {l : List Callback} {u : Bool} {q : ℚ} (h : Awake X s) (hl : .stop ∈ l → ∀ p, .resume p ∉ l) :
    Awake X ((s.alloc ⟨v, d, some l⟩).schedule s.next u q) := by
  refine awake_move h (fun p pt h1 _ => .inl ⟨h1, rfl⟩) (fun ev p hm => ?_) (fun ev h1 h2 => ?_) (fun en hen => (mem_insertEntry _ _ _).2 (.inr hen)) (fun ev hev => ?_) (fun ev hs => ?_)
    (fun n a hm => (h.act n a hm).trans (Nat.lt_succ_self _)) (h.proc.trans (Nat.lt_succ_self _))
  · show _ ∈ (s.alloc _).cbs ev
    rw [cbs_alloc_old (Nat.ne_of_lt (lt_of_open h (open_of_mem hm)))]; exact hm
  · by_cases he : ev = s.next
    · exact .inr ⟨_, (mem_insertEntry _ _ _).2 (.inl rfl), he.symm⟩
    · change ((s.alloc _).events ev).value.isSome at h1
      change ((s.alloc _).events ev).callbacks.isSome at h2
      rw [events_alloc_old he] at h1 h2; exact .inl ⟨h1, h2⟩
  · have : s.next + 1 ≤ ev := hev
    show ((s.alloc _).events ev).callbacks = _
    rw [events_alloc_old (by omega)]; exact h.fresh ev (by omega)
  · change _ ∈ (s.alloc _).cbs ev at hs
    show (∀ p, _ ∉ (s.alloc _).cbs ev) ∧ _
    by_cases he : ev = s.next
    · subst he; rw [cbs_alloc_new] at hs ⊢
      exact ⟨hl hs, fun n hn => lt_irrefl _ (h.act n _ hn), fun hn => lt_irrefl _ (hn ▸ h.proc)⟩
    · rw [cbs_alloc_old he] at hs ⊢; exact h.stops ev hs

theorem awake_trigger {ev : ℕ} {v : Except PyErr SVal} (h : Awake X s) : Awake X (s.trigger ev v) := by
  have hc : ∀ x, ((s.trigger ev v).events x).callbacks = (s.events x).callbacks := fun x => by
    show (fset s.events ev _ x).callbacks = _
    by_cases hx : x = ev
    · subst hx; rw [fset_same]
    · rw [fset_other _ _ hx]
  have hcb : ∀ x, (s.trigger ev v).cbs x = s.cbs x := fun x => by unfold Sim.cbs; rw [hc]
  refine awake_move h (fun p pt h1 _ => .inl ⟨h1, rfl⟩) (fun x p hm => by rw [hcb]; exact hm) (fun x h1 h2 => ?_) (fun en hen => (mem_insertEntry _ _ _).2 (.inr hen))
    (fun x hx => by rw [hc]; exact h.fresh x hx) (fun x hs => by rw [hcb] at hs ⊢; exact h.stops x hs) h.act h.proc
  by_cases hx : x = ev
  · exact .inr ⟨_, (mem_insertEntry _ _ _).2 (.inl rfl), hx.symm⟩
  · rw [hc] at h2
    change (fset s.events ev _ x).value.isSome at h1
    rw [fset_other _ _ hx] at h1; exact .inl ⟨h1, h2⟩

theorem callbacks_addCallback (s : Sim) (ev : ℕ) (c : Callback) (x : ℕ) : ((s.addCallback ev c).events x).callbacks.isSome = (s.events x).callbacks.isSome := by
  show (fset s.events ev _ x).callbacks.isSome = _
  by_cases hx : x = ev
  · subst hx; rw [fset_same]; simp
  · rw [fset_other _ _ hx]

theorem awake_addCheck {ev : ℕ} {c : Callback} (h : Awake X s) (hc : c ≠ .stop) (hr : ∀ p, c = .resume p → .stop ∉ s.cbs ev) : Awake X (s.addCallback ev c) := by
  refine awake_move h (fun p pt h1 _ => .inl ⟨h1, rfl⟩) (fun x p hm => mem_addCallback_old hm) (fun x h1 h2 => ?_) (fun _ h => h) (fun x hx => ?_) (fun x hs => ?_) h.act h.proc
  · rw [value_addCallback] at h1; rw [callbacks_addCallback] at h2; exact .inl ⟨h1, h2⟩
  · have := callbacks_addCallback s ev c x
    rw [h.fresh x hx] at this
    simpa using this
  · rcases mem_addCallback hs with hs | ⟨hs, _⟩
    · refine ⟨fun p hm => ?_, (h.stops x hs).2⟩
      rcases mem_addCallback hm with h1 | ⟨h1, h2⟩
      · exact (h.stops x hs).1 p h1
      · exact hr p h1.symm (h2 ▸ hs)
    · exact absurd hs.symm hc

/-- Dropping a callback that does not resume a process, or that of a process in `X`. -/
theorem awake_drop {ev : ℕ} {c : Callback} (h : Awake X s) (hc : ∀ p, c = .resume p → X p ∨ s.points p = Option.none) : Awake X (s.dropCallback ev c) := by
  have hcb : ∀ x, (s.dropCallback ev c).cbs x = if x = ev then (s.cbs x).erase c else s.cbs x := fun x => by
    unfold Sim.cbs
    show ((fset s.events ev _ x).callbacks).getD [] = _
    by_cases hx : x = ev
    · subst hx; rw [fset_same, if_pos rfl]; cases (s.events x).callbacks <;> simp
    · rw [fset_other _ _ hx, if_neg hx]
  have hsome : ∀ x, ((s.dropCallback ev c).events x).callbacks.isSome = (s.events x).callbacks.isSome := fun x => by
    show (fset s.events ev _ x).callbacks.isSome = _
    by_cases hx : x = ev
    · subst hx; rw [fset_same]; simp
    · rw [fset_other _ _ hx]
  have hval : ∀ x, ((s.dropCallback ev c).events x).value = (s.events x).value := fun x => by
    show (fset s.events ev _ x).value = _
    by_cases hx : x = ev
    · subst hx; rw [fset_same]
    · rw [fset_other _ _ hx]
  have hsub : ∀ x cb, cb ∈ (s.dropCallback ev c).cbs x → cb ∈ s.cbs x := fun x cb hm => by
    rw [hcb] at hm
    split at hm
    · exact List.mem_of_mem_erase hm
    · exact hm
  refine ⟨fun p pt hp hx => ?_, fun x h1 h2 => ?_, fun x hx => ?_, fun x hs => ⟨fun p hm => (h.stops x (hsub _ _ hs)).1 p (hsub _ _ hm), (h.stops x (hsub _ _ hs)).2⟩, h.act, h.proc⟩
  · have hw := h.woken p pt hp hx
    show .resume p ∈ (s.dropCallback ev c).cbs (s.target p)
    rw [hcb]
    split
    · refine (List.mem_erase_of_ne ?_).2 hw
      intro he
      rcases hc p he.symm with h1 | h1
      · exact hx h1
      · rw [show s.points p = some pt from hp] at h1; cases h1
    · exact hw
  · rw [hval] at h1; rw [hsome] at h2; exact h.queued x h1 h2
  · have := hsome x
    rw [h.fresh x hx] at this
    simpa using this

theorem awake_defuse {ev : ℕ} (h : Awake X s) : Awake X (s.defuse ev) := by
  have hc : ∀ x, ((s.defuse ev).events x).callbacks = (s.events x).callbacks := fun x => by
    show (fset s.events ev _ x).callbacks = _
    by_cases hx : x = ev
    · subst hx; rw [fset_same]
    · rw [fset_other _ _ hx]
  have hval : ∀ x, ((s.defuse ev).events x).value = (s.events x).value := fun x => by
    show (fset s.events ev _ x).value = _
    by_cases hx : x = ev
    · subst hx; rw [fset_same]
    · rw [fset_other _ _ hx]
  have hcb : ∀ x, (s.defuse ev).cbs x = s.cbs x := fun x => by unfold Sim.cbs; rw [hc]
  exact ⟨fun p pt hp hx => by rw [hcb]; exact h.woken p pt hp hx, fun x h1 h2 => h.queued x (by rw [← hval]; exact h1) (by rw [← hc]; exact h2),
    fun x hx => by rw [hc]; exact h.fresh x hx, fun x hs => by rw [hcb] at hs ⊢; exact h.stops x hs, h.act, h.proc⟩

/-! ## Code -/

/-- `Does` for this invariant. -/
abbrev Stirs (X : ℕ → Prop) (m : SimM A) (s : Sim) (Q : Sim → A → Prop) : Prop := Does (Awake X) (fun _ _ => True) m s Q

/-- An event one can wait for. -/
def Open (s : Sim) (ev : ℕ) : Prop := (s.events ev).callbacks.isSome ∧ .stop ∉ s.cbs ev

/-- The event a process is going to wait for. -/
def OpenRes (s : Sim) (r : Res) : Prop := ∀ ev pt, r = .wait ev pt → Open s ev

theorem stirs_bind {m : SimM A} {f : A → SimM B} {Q : Sim → A → Prop} {Q' : Sim → B → Prop} (hm : Stirs X m s Q)
    (hf : ∀ a s', Awake X s' → Q s' a → Stirs X (f a) s' Q') : Stirs X (m >>= f) s Q' :=
  does_bind (fun _ _ _ _ _ => trivial) hm fun a s' h _ hq => hf a s' h hq

theorem stirs_pure {a : A} {Q : Sim → A → Prop} (h : Awake X s) (hq : Q s a) : Stirs X (pure a) s Q := does_pure (fun _ => trivial) h hq

theorem stirs_throw {e : PyErr} {Q : Sim → A → Prop} (h : Awake X s) : Stirs X (SimM.throw e : SimM A) s Q := does_throw (fun _ => trivial) h

theorem stirs_get {f : Sim → A} (h : Awake X s) : Stirs X (SimM.get f) s (fun s' a => s' = s ∧ a = f s) := does_get (fun _ => trivial) h

theorem stirs_set {f : Sim → Sim} (h : Awake X (f s)) : Stirs X (SimM.set f) s (fun _ _ => True) := ⟨h, trivial, fun _ _ => trivial⟩

theorem stirs_quiet {f : Sim → Sim} (h : Awake X s) (hf : ∀ s : Sim, (f s).queue = s.queue ∧ (f s).events = s.events ∧ (f s).next = s.next ∧ (f s).points = s.points ∧
    (f s).target = s.target ∧ (f s).activate = s.activate ∧ (f s).procActivate = s.procActivate) : Stirs X (SimM.set f) s (fun _ _ => True) := by
  obtain ⟨h1, h2, h3, h4, h5, h6, h7⟩ := hf s
  exact stirs_set (awake_same h h1 h2 h3 h4 h5 h6 h7)

theorem stirs_ite {b : Prop} [Decidable b] {m n : SimM A} {Q : Sim → A → Prop} (hm : b → Stirs X m s Q) (hn : ¬ b → Stirs X n s Q) :
    Stirs X (if b then m else n) s Q := by
  split
  · exact hm ‹_›
  · exact hn ‹_›

theorem stirs_newEvent (h : Awake X s) : Stirs X newEvent s (fun s' a => Open s' a ∧ s' = s.alloc ⟨Option.none, false, some []⟩ ∧ a = s.next) := by
  refine ⟨awake_alloc h rfl (by simp), trivial, fun a ha => ?_⟩
  obtain rfl : s.next = a := by simpa [newEvent] using ha
  refine ⟨⟨?_, ?_⟩, rfl, rfl⟩
  · show ((s.alloc _).events s.next).callbacks.isSome = true
    rw [events_alloc_new]; rfl
  · show _ ∉ (s.alloc _).cbs s.next
    rw [cbs_alloc_new]; simp

theorem stirs_succeed {ev : ℕ} (h : Awake X s) : Stirs X (succeed ev) s (fun _ _ => True) := by
  unfold Stirs Does succeed
  split
  · exact ⟨h, trivial, fun _ _ => trivial⟩
  · exact ⟨awake_trigger h, trivial, fun _ _ => trivial⟩

theorem stirs_timeout {d : ℚ} (h : Awake X s) : Stirs X (timeout d) s Open := by
  unfold Stirs Does timeout
  split
  · exact ⟨h, trivial, by simp⟩
  · refine ⟨awake_timer h (by simp), trivial, fun a ha => ?_⟩
    obtain rfl : s.next = a := by simpa using ha
    refine ⟨?_, ?_⟩
    · show ((s.alloc _).events s.next).callbacks.isSome = true
      rw [events_alloc_new]; rfl
    · show _ ∉ (s.alloc _).cbs s.next
      rw [cbs_alloc_new]; simp

theorem stirs_process {pt : Pt} (h : Awake X s) : Stirs X (process pt) s (fun s' a => Open s' a ∧ s'.procActivate = s.procActivate) := by
  unfold Stirs Does process
  dsimp only
  set s1 := s.alloc ⟨Option.none, false, some []⟩ with hs1
  have h1 : Awake X s1 := awake_alloc h rfl (by simp)
  set s2 := (s1.alloc ⟨some (.ok .nothing), false, some [.resume s.next]⟩).schedule s1.next true 0 with hs2
  have h2 : Awake X s2 := awake_timer h1 (by simp)
  have hcb : s2.cbs s1.next = [.resume s.next] := by show (s1.alloc _).cbs s1.next = _; rw [cbs_alloc_new]; rfl
  have hnew : s2.events s.next = ⟨Option.none, false, some []⟩ := by
    show (s1.alloc _).events s.next = _
    rw [events_alloc_old (by show s.next ≠ s.next + 1; omega), hs1, events_alloc_new]
  refine ⟨awake_move h2 (fun p pt' hp hx => ?_) (fun _ _ h => h) (fun _ a b => .inl ⟨a, b⟩) (fun _ h => h) h2.fresh h2.stops h2.act h2.proc, trivial, fun a ha => ?_⟩
  · by_cases he : p = s.next
    · subst he
      right
      show _ ∈ s2.cbs (fset s2.target s.next s1.next s.next)
      rw [fset_same, hcb]; simp
    · left
      exact ⟨by rw [← hp]; exact (fset_other _ _ he).symm, fset_other _ _ he⟩
  · obtain rfl : s.next = a := by simpa using ha
    exact ⟨⟨by show (s2.events s.next).callbacks.isSome = true; rw [hnew]; rfl, by show _ ∉ s2.cbs s.next; unfold Sim.cbs; rw [hnew]; simp⟩, rfl⟩

theorem stirs_interrupt {q : ℕ} (h : Awake X s) : Stirs X (interruptProcess q) s (fun _ _ => True) := by
  unfold Stirs Does interruptProcess
  split
  · exact ⟨h, trivial, fun _ _ => trivial⟩
  · exact ⟨awake_timer h (by simp), trivial, fun _ _ => trivial⟩

theorem stirs_anyOf {a b : ℕ} (h : Awake X s) : Stirs X (anyOf a b) s Open := by
  unfold Stirs Does anyOf
  dsimp only
  set s1 := s.alloc ⟨Option.none, false, some [.build s.next a b]⟩ with hs1
  have h1 : Awake X s1 := awake_alloc h rfl (by simp)
  have o1 : Open s1 s.next := ⟨by rw [hs1, events_alloc_new]; rfl, by rw [hs1, cbs_alloc_new]; simp⟩
  have key : ∀ (t : Sim) (ev : ℕ), Awake X t → Open t s.next →
      Awake X (if t.processed ev then (if t.triggered s.next then t else t.trigger s.next (.ok .nothing)) else t.addCallback ev (.check s.next)) ∧
      Open (if t.processed ev then (if t.triggered s.next then t else t.trigger s.next (.ok .nothing)) else t.addCallback ev (.check s.next)) s.next := by
    intro t ev ht ho
    split
    · split
      · exact ⟨ht, ho⟩
      · refine ⟨awake_trigger ht, ?_⟩
        have : (t.trigger s.next (.ok .nothing)).events s.next = { t.events s.next with value := some (.ok .nothing) } := by show fset _ _ _ _ = _; rw [fset_same]
        unfold Open Sim.cbs
        rw [this]; exact ho
    · refine ⟨awake_addCheck ht (by simp) (by simp), by rw [callbacks_addCallback]; exact ho.1, fun hm => ?_⟩
      rcases mem_addCallback hm with hm | ⟨hm, _⟩
      · exact ho.2 hm
      · cases hm
  obtain ⟨h2, o2⟩ := key s1 a h1 o1
  obtain ⟨h3, o3⟩ := key _ b h2 o2
  refine ⟨h3, trivial, fun x hx => ?_⟩
  obtain rfl : s.next = x := by simpa using hx
  exact o3

theorem stirs_activateProc {e : Ev} (h : Awake X s) : Stirs X (activateProc e) s (fun _ _ => True) := by
  rcases activateProc_cases e with he | he <;> rw [he]
  · exact stirs_pure h trivial
  · unfold Stirs Does
    dsimp only
    split
    · exact ⟨h, trivial, fun _ _ => trivial⟩
    · exact stirs_succeed h

theorem stirs_print {e : Ev} (h : Awake X s) : Stirs X (printEvent e) s (fun _ _ => True) := by
  rcases printEvent_cases e with ⟨_, he⟩ | ⟨_, he⟩ <;> rw [he]
  · exact stirs_pure h trivial
  · exact stirs_quiet h fun _ => ⟨rfl, rfl, rfl, rfl, rfl, rfl, rfl⟩

theorem stirs_w (h : Awake X s) {f : Sim → Mach} : Stirs X (SimM.set (fun s => { s with w := f s })) s (fun _ _ => True) :=
  stirs_quiet h fun _ => ⟨rfl, rfl, rfl, rfl, rfl, rfl, rfl⟩

theorem stirs_env (h : Awake X s) : Stirs X envInteraction s (fun _ _ => True) := by
  unfold Stirs envInteraction Does
  dsimp only
  cases s.w.env with
  | none => exact ⟨h, trivial, fun _ _ => trivial⟩
  | some env =>
    dsimp only
    split
    · exact stirs_bind (stirs_succeed h) fun _ s1 h1 _ => stirs_w (f := fun s => { s.w with interaction := [] }) h1
    · exact stirs_w (f := fun s => { s.w with interaction := [] }) h

theorem stirs_localRun {name : String} {o : Out Mach YV Unit} (h : Awake X s) : Stirs X (localRun name o) s OpenRes := by
  cases o with
  | yield w y k =>
    cases y with
    | ev e =>
      exact stirs_bind (stirs_w (f := fun _ => w) h) fun _ s1 h1 _ => stirs_bind (stirs_get h1) fun now s2 h2 _ => stirs_bind (stirs_timeout h2) fun t s3 h3 ho =>
        stirs_pure h3 fun ev pt he => by cases he; exact ho
    | cont d => exact stirs_bind (stirs_w (f := fun _ => w) h) fun _ s1 h1 _ => stirs_pure h1 (fun ev pt he => by cases he)
    | procs => exact stirs_bind (stirs_w (f := fun _ => w) h) fun _ s1 h1 _ => stirs_pure h1 (fun ev pt he => by cases he)
    | nothing => exact stirs_bind (stirs_w (f := fun _ => w) h) fun _ s1 h1 _ => stirs_pure h1 (fun ev pt he => by cases he)
  | ret w r => exact stirs_bind (stirs_w (f := fun _ => w) h) fun _ s1 h1 _ => stirs_pure h1 (fun ev pt he => by cases he)
  | raise w x => exact stirs_bind (stirs_w (f := fun _ => w) h) fun _ s1 h1 _ => stirs_throw h1

theorem stirs_localResume {name : String} {e : Ev} {k : Mach → Out Mach YV Unit} {x : Except PyErr SVal} (h : Awake X s) : Stirs X (localResume name e k x) s OpenRes := by
  rcases x with x | v
  · by_cases hi : x = .interrupt
    · subst hi; exact stirs_pure h (fun ev pt he => by cases he)
    · have : localResume name e k (.error x) = .throw x := by cases x <;> first | rfl | exact absurd rfl hi
      rw [this]; exact stirs_throw h
  · exact stirs_bind (stirs_print h) fun _ s1 h1 _ => stirs_bind (stirs_activateProc h1) fun _ s2 h2 _ => stirs_bind (stirs_env h2) fun _ s3 h3 _ =>
      stirs_bind (stirs_get h3) fun w s4 h4 _ => stirs_localRun h4

theorem stirs_activateOf {name : String} (h : Awake X s) : Stirs X (activateOf name) s (fun s' a => s' = s ∧ (name, a) ∈ s.activate) := by
  unfold Stirs Does activateOf
  cases hl : alook name s.activate with
  | none => exact ⟨h, trivial, by simp⟩
  | some a => exact ⟨h, trivial, fun b hb => by cases hb; exact ⟨rfl, alook_mem hl⟩⟩

theorem stirs_renew {name : String} (h : Awake X s) : Stirs X (renewActivate name) s Open := by
  unfold renewActivate
  refine stirs_bind (stirs_newEvent h) fun a s1 h1 ho => ?_
  refine stirs_bind (Q := fun s' _ => Open s' a) ⟨?_, trivial, fun _ _ => ho.1⟩ fun _ s2 h2 ho2 => stirs_pure h2 ho2
  refine awake_move h1 (fun p pt h1 _ => .inl ⟨h1, rfl⟩) (fun _ _ h => h) (fun _ a b => .inl ⟨a, b⟩) (fun _ h => h) h1.fresh (fun ev hs => ⟨(h1.stops ev hs).1, fun n hn => ?_, (h1.stops ev hs).2.2⟩) (fun n b hn => ?_) h1.proc
  · rcases aset_mem hn with hn | hn
    · cases hn; exact ho.1.2 hs
    · exact (h1.stops ev hs).2.1 n hn
  · rcases aset_mem hn with hn | hn
    · cases hn; exact lt_of_open h1 ho.1.1
    · exact h1.act n b hn

theorem open_of_act (h : Awake X s) {name : String} {a : ℕ} (hm : (name, a) ∈ s.activate) (hg : s.processed a = false) : Open s a := by
  refine ⟨?_, fun hs => (h.stops a hs).2.1 name hm⟩
  unfold Sim.processed at hg
  cases hc : (s.events a).callbacks with
  | none => rw [hc] at hg; cases hg
  | some l => rfl

theorem stirs_setStarted {l : Sim → List PItem} (h : Awake X s) : Stirs X (SimM.set (fun s => s.setStarted (l s))) s (fun _ _ => True) :=
  stirs_quiet h fun s => by unfold Sim.setStarted; cases s.started <;> exact ⟨rfl, rfl, rfl, rfl, rfl, rfl, rfl⟩

theorem stirs_extraLoop {C : Cfg} {name : String} (h : Awake X s) : Stirs X (extraLoop C name) s OpenRes := by
  unfold extraLoop
  refine stirs_bind (stirs_get h) fun l s1 h1 _ => ?_
  cases takeFor name l with
  | error x => exact stirs_throw h1
  | ok o =>
    rcases o with _ | ⟨⟨i, d⟩, rest⟩
    · refine stirs_bind (stirs_quiet h1 fun _ => ⟨rfl, rfl, rfl, rfl, rfl, rfl, rfl⟩) fun _ s2 h2 _ => ?_
      refine stirs_bind (stirs_activateOf h2) fun a s3 h3 ha => ?_
      refine stirs_bind (stirs_get h3) fun gone s4 h4 hg => ?_
      obtain ⟨rfl, ha⟩ := ha
      obtain ⟨rfl, hg⟩ := hg
      refine stirs_ite (fun _ => ?_) fun hn => ?_
      · exact stirs_bind (stirs_renew h4) fun a' s5 h5 ho => stirs_pure h5 fun ev pt he => by cases he; exact ho
      · refine stirs_pure h4 fun ev pt he => ?_
        cases he
        exact open_of_act h4 ha (by rw [← hg]; simpa using hn)
    · refine stirs_bind (stirs_setStarted (l := fun _ => rest) h1) fun _ s2 h2 _ => ?_
      refine stirs_bind (stirs_activateOf h2) fun a s3 h3 _ => ?_
      refine stirs_bind (stirs_get h3) fun busy s4 h4 _ => ?_
      have hrest : ∀ {s5 : Sim}, Awake X s5 → Stirs X (do let pro ← process (.localNew name (Desc.run C d)); return .wait pro (.extraMain name pro) : SimM Res) s5 OpenRes := fun h5 =>
        stirs_bind (stirs_process h5) fun pro s6 h6 ho => stirs_pure h6 fun ev pt he => by cases he; exact ho.1
      dsimp only
      exact stirs_ite (fun _ => hrest h4) fun _ => stirs_bind (stirs_succeed h4) fun _ s5 h5 _ => hrest h5

theorem stirs_extraAfterMain {C : Cfg} {name : String} {pro : ℕ} {x : Except PyErr SVal} (h : Awake X s) : Stirs X (extraAfterMain C name pro x) s OpenRes := by
  rcases x with x | v
  · by_cases hi : x = .interrupt
    · subst hi
      refine stirs_bind (stirs_get h) fun over s1 h1 _ => ?_
      dsimp only
      exact stirs_ite (fun _ => stirs_extraLoop h1) fun _ => stirs_bind (stirs_interrupt h1) fun _ s2 h2 _ => stirs_extraLoop h2
    · have : extraAfterMain C name pro (.error x) = .throw x := by cases x <;> first | rfl | exact absurd rfl hi
      rw [this]; exact stirs_throw h
  · cases v with
    | cont d => exact stirs_bind (stirs_process h) fun pro s6 h6 ho => stirs_pure h6 fun ev pt he => by cases he; exact ho.1
    | nothing => exact stirs_extraLoop h
    | procs => exact stirs_extraLoop h

theorem stirs_extraAfterCont {C : Cfg} {name : String} {x : Except PyErr SVal} (h : Awake X s) : Stirs X (extraAfterCont C name x) s OpenRes := by
  rcases x with x | v
  · by_cases hi : x = .interrupt
    · subst hi; exact stirs_extraLoop h
    · have : extraAfterCont C name (.error x) = .throw x := by cases x <;> first | rfl | exact absurd rfl hi
      rw [this]; exact stirs_throw h
  · exact stirs_extraLoop h

theorem stirs_interruptExtra {name : String} (h : Awake X s) : Stirs X (interruptExtra name) s (fun _ _ => True) := by
  unfold Stirs Does interruptExtra
  cases alook name s.extra with
  | none => exact ⟨h, trivial, fun _ _ => trivial⟩
  | some q => exact stirs_interrupt h

theorem stirs_interruptibles {f : Sim → List (String × ℕ)} (h : Awake X s) : Stirs X (SimM.set (fun s => { s with interruptibles := f s })) s (fun _ _ => True) :=
  stirs_quiet h fun _ => ⟨rfl, rfl, rfl, rfl, rfl, rfl, rfl⟩

theorem stirs_notify {x : PItem} (h : Awake X s) : Stirs X (notify x) s (fun _ _ => True) := by
  cases x with
  | procedural => exact stirs_throw h
  | gen name i d =>
    refine stirs_bind (stirs_activateOf h) fun a s1 h1 _ => ?_
    refine stirs_bind (stirs_get h1) fun busy s2 h2 _ => ?_
    refine stirs_ite (fun _ => ?_) fun _ => ?_
    · refine stirs_bind (stirs_get h2) fun old s3 h3 _ => ?_
      cases old with
      | none => exact stirs_pure h3 trivial
      | some j => exact stirs_ite (fun _ => stirs_pure h3 trivial) fun _ => stirs_bind (stirs_interruptibles (f := fun s => aset name i s.interruptibles) h3) fun _ s4 h4 _ => stirs_interruptExtra h4
    · dsimp only
      exact stirs_ite (fun _ => stirs_bind (stirs_interruptibles (f := fun s => aset name i s.interruptibles) h2) fun _ s4 h4 _ => stirs_succeed h4) fun _ => stirs_succeed h2

theorem stirs_notifyAll (l : List PItem) : ∀ {s : Sim}, Awake X s → Stirs X (notifyAll l) s (fun _ _ => True) := by
  induction l with
  | nil => intro s h; exact stirs_pure h trivial
  | cons x r ih => intro s h; exact stirs_bind (stirs_notify h) fun _ s1 h1 _ => ih h1

theorem stirs_procCycle {C : Cfg} {pt : Pt} (h : Awake X s) : Stirs X (procCycle C pt) s OpenRes :=
  stirs_bind (stirs_get h) fun now s1 h1 _ => stirs_bind (stirs_process h1) fun pro s2 h2 ho => stirs_pure h2 fun ev pt he => by cases he; exact ho.1

theorem stirs_procSpins {n : ℕ} (h : Awake X s) : Stirs X (procSpins n) s OpenRes :=
  stirs_bind (stirs_timeout h) fun t s1 h1 ho => stirs_pure h1 fun ev pt he => by cases he; exact ho

theorem stirs_procLoop (h : Awake X s) : Stirs X procLoop s OpenRes := by
  unfold procLoop
  refine stirs_bind (stirs_get h) fun l s1 h1 _ => stirs_ite (fun _ => ?_) fun _ => ?_
  · refine stirs_bind (stirs_setStarted (l := fun _ => removeProcedural l) h1) fun _ s2 h2 _ => ?_
    exact stirs_bind (stirs_get h2) fun l s3 h3 _ => stirs_bind (stirs_notifyAll l h3) fun _ s4 h4 _ => stirs_procSpins h4
  · refine stirs_bind (stirs_get h1) fun a s2 h2 ha => ?_
    refine stirs_bind (stirs_get h2) fun gone s3 h3 hg => stirs_ite (fun _ => stirs_procSpins h3) fun hn => ?_
    obtain ⟨rfl, rfl⟩ := ha
    obtain ⟨rfl, rfl⟩ := hg
    refine stirs_pure h3 fun ev pt he => ?_
    cases he
    refine ⟨?_, fun hs => (h3.stops _ hs).2.2 rfl⟩
    unfold Sim.processed at hn
    cases hc : (s3.events s3.procActivate).callbacks with
    | none => rw [hc] at hn; simp at hn
    | some l => rfl

theorem stirs_procsReturned {v : SVal} (h : Awake X s) : Stirs X (procsReturned v) s (fun _ _ => True) := by
  cases v with
  | procs => exact stirs_quiet h fun _ => ⟨rfl, rfl, rfl, rfl, rfl, rfl, rfl⟩
  | nothing => exact stirs_throw h
  | cont d => exact stirs_throw h

theorem stirs_envIter {e : EnvEvent} {k : Mach → Out Mach EnvEvent Unit} (h : Awake X s) : Stirs X (envIter e k) s OpenRes :=
  stirs_bind (stirs_process h) fun pro s1 h1 _ => stirs_bind (stirs_get h1) fun a s2 h2 _ => stirs_bind (stirs_anyOf h2) fun c s3 h3 ho =>
    stirs_pure h3 fun ev pt he => by cases he; exact ho

theorem awake_w (h : Awake X s) (w : Mach) : Awake X { s with w := w } := awake_same h rfl rfl rfl rfl rfl rfl rfl

theorem stirs_envStart {C : Cfg} (h : Awake X s) : Stirs X (envStart C) s OpenRes := by
  unfold Stirs Does envStart
  cases ha : s.envArgs with
  | none => exact ⟨h, trivial, by simp⟩
  | some a =>
    dsimp only
    have hw : ∀ w, Awake X { s with w := w, envArgs := some a } := fun w => awake_same h rfl rfl rfl rfl rfl rfl rfl
    cases envProcess (fun env w => { w with env := some env }) envOf C.upper a.stimuli a.triggers a.times a.startTime s.w with
    | yield w e k => exact stirs_envIter (hw w)
    | ret w r => exact ⟨hw w, trivial, by simp⟩
    | raise w x => exact ⟨hw w, trivial, by simp⟩

theorem stirs_startAutomatic {name : String} {i : ℕ} {d : Desc} (h : Awake X s) : Stirs X (startAutomatic name i d) s (fun _ _ => True) := by
  unfold startAutomatic
  refine stirs_bind (stirs_setStarted (l := fun s => s.startedList ++ [.gen name i d]) h) fun _ s1 h1 _ => ?_
  refine stirs_bind (stirs_activateOf h1) fun a s2 h2 _ => stirs_bind (stirs_get h2) fun busy s3 h3 _ => stirs_ite (fun _ => ?_) fun _ => ?_
  · refine stirs_bind (stirs_get h3) fun old s4 h4 _ => ?_
    cases old with
    | none => exact stirs_throw h4
    | some j => exact stirs_bind (stirs_interruptibles (f := fun s => aset name i s.interruptibles) h4) fun _ s5 h5 _ => stirs_interruptExtra h5
  · exact stirs_bind (stirs_interruptibles (f := fun s => aset name i s.interruptibles) h3) fun _ s5 h5 _ => stirs_succeed h5

theorem stirs_automatic {name : String} (h : Awake X s) : Stirs X (automatic name) s (fun _ _ => True) := by
  unfold Stirs Does automatic
  cases s.w.buf name with
  | none => exact ⟨h, trivial, fun _ _ => trivial⟩
  | some b =>
    dsimp only
    cases automaticFor name b s.w.onScreen s.now with
    | none => exact ⟨h, trivial, fun _ _ => trivial⟩
    | some d => exact stirs_startAutomatic (awake_w h _)

theorem stirs_automaticAll (l : List String) : ∀ {s : Sim}, Awake X s → Stirs X (automaticAll l) s (fun _ _ => True) := by
  induction l with
  | nil => intro s h; exact stirs_pure h trivial
  | cons x r ih => intro s h; exact stirs_bind (stirs_automatic h) fun _ s1 h1 _ => ih h1

theorem stirs_envNext {pro : ℕ} (h : Awake X s) : Stirs X (envNext pro) s (fun _ _ => True) := by
  unfold envNext
  refine stirs_bind (stirs_get h) fun a s1 h1 _ => stirs_bind (stirs_get h1) fun pressed s2 h2 _ => stirs_ite (fun _ => ?_) fun _ => stirs_pure h2 trivial
  exact stirs_bind (stirs_newEvent h2) fun a' s3 h3 _ => stirs_bind (stirs_quiet h3 fun _ => ⟨rfl, rfl, rfl, rfl, rfl, rfl, rfl⟩) fun _ s4 h4 _ => stirs_interrupt h4

theorem stirs_envAdvance {k : Mach → Out Mach EnvEvent Unit} (h : Awake X s) : Stirs X (envAdvance k) s OpenRes := by
  unfold Stirs Does envAdvance
  cases k s.w with
  | yield w e k' => exact stirs_bind (stirs_automaticAll _ (awake_w h w)) fun _ s1 h1 _ => stirs_envIter h1
  | ret w r => exact ⟨awake_w h w, trivial, fun a ha ev pt he => by cases ha; cases he⟩
  | raise w x => exact ⟨awake_w h w, trivial, by simp⟩

theorem stirs_envProcStart {e : Ev} (h : Awake X s) : Stirs X (envProcStart e) s OpenRes := by
  have ht := stirs_timeout (d := e.time - s.now) h
  unfold Stirs Does envProcStart
  unfold Stirs Does at ht
  rcases hr : timeout (e.time - s.now) s with ⟨s1, x | t⟩
  · rw [hr] at ht
    exact stirs_bind (stirs_activateProc ht.1) fun _ s2 h2 _ => stirs_throw h2
  · rw [hr] at ht
    exact ⟨ht.1, trivial, fun a ha ev pt he => by cases ha; cases he; exact ht.2.2 t rfl⟩

theorem stirs_envProcResume {e : Ev} {x : Except PyErr SVal} (h : Awake X s) : Stirs X (envProcResume e x) s OpenRes := by
  rcases x with x | v
  · by_cases hi : x = .interrupt
    · subst hi; exact stirs_bind (stirs_activateProc h) fun _ s1 h1 _ => stirs_pure h1 (fun ev pt he => by cases he)
    · have : envProcResume e (.error x) = (do activateProc e; .throw x : SimM Res) := by cases x <;> first | rfl | exact absurd rfl hi
      rw [this]; exact stirs_bind (stirs_activateProc h) fun _ s1 h1 _ => stirs_throw h1
  · exact stirs_bind (stirs_print h) fun _ s1 h1 _ => stirs_bind (stirs_activateProc h1) fun _ s2 h2 _ => stirs_pure h2 (fun ev pt he => by cases he)

theorem awake_renewProc {a : ℕ} (h : Awake X s) (ho : Open s a) : Awake X { s with procActivate := a } :=
  awake_move h (fun p pt h1 _ => .inl ⟨h1, rfl⟩) (fun _ _ h => h) (fun _ a b => .inl ⟨a, b⟩) (fun _ h => h) h.fresh
    (fun ev hs => ⟨(h.stops ev hs).1, (h.stops ev hs).2.1, fun he => by subst he; exact ho.2 hs⟩) h.act (lt_of_open h ho.1)

theorem stirs_code {C : Cfg} {pt : Pt} {x : Except PyErr SVal} (h : Awake X s) : Stirs X (code C pt x) s OpenRes := by
  cases pt with
  | extraMain name pro => exact stirs_extraAfterMain h
  | extraCont name => exact stirs_extraAfterCont h
  | localWait name e k => exact stirs_localResume h
  | envProc e => exact stirs_envProcResume h
  | procNew => rcases x with x | v <;> [exact stirs_throw h; exact stirs_procCycle h]
  | procFirst => rcases x with x | v <;> [exact stirs_throw h; exact stirs_bind (stirs_procsReturned h) fun _ s1 h1 _ => stirs_procLoop h1]
  | procIdle => rcases x with x | v <;> [exact stirs_throw h; exact stirs_procSpins h]
  | procSpin n =>
    rcases x with x | v
    · exact stirs_throw h
    · cases n <;> [exact stirs_procCycle h; exact stirs_procSpins h]
  | procAgain =>
    rcases x with x | v
    · exact stirs_throw h
    · refine stirs_bind (stirs_procsReturned h) fun _ s1 h1 _ => stirs_bind (stirs_newEvent h1) fun a s2 h2 ho => ?_
      refine stirs_bind (stirs_set (awake_renewProc h2 ho.1)) fun _ s3 h3 _ => stirs_procLoop h3
  | extraNew name => rcases x with x | v <;> [exact stirs_throw h; exact stirs_extraLoop h]
  | extraIdle name => rcases x with x | v <;> [exact stirs_throw h; exact stirs_bind (stirs_renew h) fun _ s1 h1 _ => stirs_extraLoop h1]
  | localNew name g => rcases x with x | v <;> [exact stirs_throw h; exact stirs_bind (stirs_get h) fun _ s1 h1 _ => stirs_localRun h1]
  | envNew => rcases x with x | v <;> [exact stirs_throw h; exact stirs_envStart h]
  | envWait pro k => rcases x with x | v <;> [exact stirs_throw h; exact stirs_bind (stirs_envNext h) fun _ s1 h1 _ => stirs_envAdvance h1]
  | envProcNew e => rcases x with x | v <;> [exact stirs_throw h; exact stirs_envProcStart h]

/-! ## Steps -/

theorem awake_mono {Y : ℕ → Prop} (h : Awake X s) (hxy : ∀ p pt, s.points p = some pt → X p → Y p) : Awake Y s :=
  ⟨fun p pt hp hy => h.woken p pt hp fun hx => hy (hxy p pt hp hx), h.queued, h.fresh, h.stops, h.act, h.proc⟩

theorem awake_gone (h : Awake (fun q => q = p ∨ X q) s) : Awake X ({ s with points := fset s.points p Option.none } : Sim) := by
  refine ⟨fun q pt hq hx => ?_, h.queued, h.fresh, h.stops, h.act, h.proc⟩
  by_cases he : q = p
  · subst he; change fset _ _ _ _ = _ at hq; rw [fset_same] at hq; cases hq
  · change fset _ _ _ _ = _ at hq
    rw [fset_other _ _ he] at hq
    exact h.woken q pt hq fun hc => hc.elim he hx

theorem awake_resume (C : Cfg) {x : Except PyErr SVal} (h : Awake (fun q => q = p ∨ X q) s) : Awake X (s.resume C p x) := by
  unfold Sim.resume
  cases hpt : s.points p with
  | none =>
    exact awake_mono h fun q pt hq hx => hx.elim (fun he => by subst he; rw [hpt] at hq; cases hq) id
  | some pt =>
    have hc := stirs_code (C := C) (pt := pt) (x := x) h
    unfold Stirs Does at hc
    dsimp only
    rcases hr : code C pt x s with ⟨s1, e | r⟩
    · rw [hr] at hc
      exact awake_trigger (awake_gone hc.1)
    · rw [hr] at hc
      cases r with
      | done v => exact awake_trigger (awake_gone hc.1)
      | wait ev pt' =>
        dsimp only at hc ⊢
        obtain ⟨h1, _, ho⟩ := hc
        have ho := ho _ rfl ev pt' rfl
        have h2 : Awake (fun q => q = p ∨ X q) ({ s1 with points := fset s1.points p (some pt'), target := fset s1.target p ev } : Sim) := by
          refine ⟨fun q pt hq hx => ?_, h1.queued, h1.fresh, h1.stops, h1.act, h1.proc⟩
          have he : q ≠ p := fun he => hx (.inl he)
          change fset _ _ _ _ = _ at hq
          rw [fset_other _ _ he] at hq
          show _ ∈ s1.cbs (fset _ _ _ _)
          rw [fset_other _ _ he]; exact h1.woken q pt hq hx
        have h3 := awake_addCheck (ev := ev) (c := .resume p) h2 (by simp) (fun _ _ => ho.2)
        refine ⟨fun q pt hq hx => ?_, h3.queued, h3.fresh, h3.stops, h3.act, h3.proc⟩
        by_cases he : q = p
        · subst he
          show _ ∈ Sim.cbs _ (fset _ _ _ _)
          rw [fset_same]
          obtain ⟨l, hl⟩ := Option.isSome_iff_exists.1 ho.1
          unfold Sim.cbs Sim.addCallback
          simp [fset, hl]
        · exact h3.woken q pt hq fun hc => hc.elim he hx

/-- The processes a list of callbacks resumes. -/
def Resumed (l : List Callback) (p : ℕ) : Prop := .resume p ∈ l

theorem awake_callback (C : Cfg) {ev : ℕ} {v : Except PyErr SVal} {cb : Callback} {l : List Callback} (h : Awake (Resumed (cb :: l)) s) : Awake (Resumed l) (callback C ev v s cb) := by
  have hkeep : (∀ p, cb ≠ .resume p) → Awake (Resumed l) s := fun hn => awake_mono h fun q pt _ hx => by
    rcases List.mem_cons.1 hx with hx | hx
    · exact absurd hx.symm (hn q)
    · exact hx
  cases cb with
  | resume p =>
    have h' : Awake (fun q => q = p ∨ Resumed l q) s := awake_mono h fun q pt _ hx => by
      rcases List.mem_cons.1 hx with hx | hx
      · cases hx; exact .inl rfl
      · exact .inr hx
    unfold callback
    rcases v with x | v
    · exact awake_resume C (awake_defuse h')
    · exact awake_resume C h'
  | interrupt p =>
    have h' := hkeep (by simp)
    unfold callback
    dsimp only
    split
    · exact h'
    · exact awake_resume C (awake_drop (awake_mono h' fun q pt _ hx => .inr hx) fun q hq => by cases hq; exact .inl (.inl rfl))
  | check c =>
    have h' := hkeep (by simp)
    unfold callback
    dsimp only
    split
    · exact h'
    · rcases v with x | v
      · exact awake_trigger (awake_defuse h')
      · exact awake_trigger h'
  | build c a b => exact awake_drop (awake_drop (hkeep (by simp)) (by simp)) (by simp)
  | stop => exact hkeep (by simp)

theorem awake_callbacks (C : Cfg) {ev : ℕ} {v : Except PyErr SVal} (l : List Callback) : ∀ {s : Sim}, Awake (Resumed l) s → Awake (fun _ => False) (l.foldl (callback C ev v) s) := by
  induction l with
  | nil => intro s h; exact awake_mono h fun q _ _ hx => by cases hx
  | cons cb l ih => intro s h; exact ih (awake_callback C h)

theorem awake_taken {en : Entry} {q : List Entry} (h : Awake (fun _ => False) s) (hq : s.queue = en :: q) : Awake (Resumed (s.cbs en.ev)) (s.taken en q) := by
  have hsame : ((s.taken en q).events en.ev).callbacks = Option.none := by simp [Sim.taken, fset]
  have hother : ∀ x, x ≠ en.ev → (s.taken en q).events x = s.events x := fun x hx => by simp [Sim.taken, fset, hx]
  have hcb : ∀ x, x ≠ en.ev → (s.taken en q).cbs x = s.cbs x := fun x hx => by unfold Sim.cbs; rw [hother x hx]
  refine ⟨fun p pt hp hx => ?_, fun ev h1 h2 => ?_, fun ev hev => ?_, fun ev hs => ?_, h.act, h.proc⟩
  · have hw := h.woken p pt hp id
    have hne : s.target p ≠ en.ev := fun he => hx (he ▸ hw)
    show _ ∈ (s.taken en q).cbs (s.target p)
    rw [hcb _ hne]; exact hw
  · have hne : ev ≠ en.ev := fun he => by subst he; rw [hsame] at h2; cases h2
    rw [hother _ hne] at h1 h2
    obtain ⟨e, he, hev⟩ := h.queued ev h1 h2
    rw [hq] at he
    rcases List.mem_cons.1 he with rfl | he
    · exact absurd hev.symm hne
    · exact ⟨e, he, hev⟩
  · by_cases hne : ev = en.ev
    · subst hne; exact hsame
    · rw [hother _ hne]; exact h.fresh ev hev
  · have hne : ev ≠ en.ev := fun he => by subst he; unfold Sim.cbs at hs; rw [hsame] at hs; cases hs
    rw [hcb _ hne] at hs ⊢; exact h.stops ev hs

theorem awake_step {C : Cfg} {r : Stepped} (h : Awake (fun _ => False) s) (hs : s.step C = r) :
    match r with | .ok s' => Awake (fun _ => False) s' | .stopped s' => Awake (fun _ => False) s' | .raised s' _ => Awake (fun _ => False) s' | .empty => True := by
  rcases step_cases hs with ⟨rfl, _⟩ | ⟨en, q, hq, ⟨hst, rfl⟩ | ⟨_, rfl | ⟨x, rfl⟩⟩⟩
  · trivial
  · exact awake_mono (awake_taken h hq) fun p pt _ hx => (h.stops _ hst).1 p hx
  · exact awake_callbacks C _ (awake_taken h hq)
  · exact awake_callbacks C _ (awake_taken h hq)

/-! ## All states -/

theorem awake_blank (w : Mach) (args : Option EnvArgs) (t : ℚ) : Awake X (Sim.blank w args t) := by
  have hcb : ∀ x, (Sim.blank w args t).cbs x = [] := fun x => by
    simp only [Sim.cbs, Sim.blank]
    split <;> rfl
  refine ⟨by simp [Sim.blank], by simp [Sim.blank], fun ev hev => ?_, by simp [hcb], by simp [Sim.blank], by simp [Sim.blank]⟩
  have : ¬ ev < 2 := not_lt.2 hev
  simp only [Sim.blank, this, if_false]

theorem stirs_initExtra : ∀ (l : List String) {s : Sim}, Awake X s → Stirs X (initExtra l) s (fun _ _ => True)
  | [], _, h => stirs_pure h trivial
  | n :: r, s, h => by
    unfold initExtra
    split
    · exact stirs_initExtra r h
    · refine stirs_bind (stirs_process h) fun p s1 h1 _ => stirs_bind (stirs_newEvent h1) fun a s2 h2 ho => ?_
      refine stirs_bind (stirs_set ?_) fun _ s3 h3 _ => stirs_initExtra r h3
      refine awake_move h2 (fun p pt h1 _ => .inl ⟨h1, rfl⟩) (fun _ _ h => h) (fun _ a b => .inl ⟨a, b⟩) (fun _ h => h) h2.fresh (fun ev hs => ⟨(h2.stops ev hs).1, fun m hm => ?_, (h2.stops ev hs).2.2⟩) (fun m b hm => ?_) h2.proc
      · rcases List.mem_append.1 hm with hm | hm
        · exact (h2.stops ev hs).2.1 m hm
        · simp only [List.mem_singleton, Prod.mk.injEq] at hm
          obtain ⟨-, rfl⟩ := hm
          exact ho.1.2 hs
      · rcases List.mem_append.1 hm with hm | hm
        · exact h2.act m b hm
        · simp only [List.mem_singleton, Prod.mk.injEq] at hm
          obtain ⟨-, rfl⟩ := hm
          exact lt_of_open h2 ho.1.1

theorem awake_init (w : Mach) (args : Option EnvArgs) (t : ℚ) : Awake X (Sim.init w args t) := by
  unfold Sim.init
  have : Stirs X (do
    let _ ← process .procNew
    initExtra (w.bufs.map Prod.fst)
    if w.env.isSome then do
      let _ ← process .envNew
      pure ()
    else pure () : SimM Unit) (Sim.blank w args t) (fun _ _ => True) := by
    refine stirs_bind (stirs_process (awake_blank w args t)) fun _ s1 h1 _ => stirs_bind (stirs_initExtra _ h1) fun _ s2 h2 _ => ?_
    split
    · exact stirs_bind (stirs_process h2) fun _ s3 h3 _ => stirs_pure h3 trivial
    · exact stirs_pure h2 trivial
  exact this.1

theorem awake_setStop {q : ℚ} (h : Awake X s) : Awake X (s.setStop q).1 := by
  unfold Sim.setStop
  split
  · exact h
  · exact awake_timer h (by simp)

theorem awake_reachable {C : Cfg} {w : Mach} {args : Option EnvArgs} {t : ℚ} (h : Reachable C w args t s) : Awake (fun _ => False) s := by
  induction h with
  | init => exact awake_init w args t
  | @stop _ _ q _ _ hs ih => have := awake_setStop (q := q) ih; rw [hs] at this; exact this
  | step _ hs ih => exact awake_step ih hs
  | stopped _ hs ih => exact awake_step ih hs
  | raised _ hs ih => exact awake_step ih hs
  | @compile s1 _ _ _ hs ih =>
    have : Awake (fun _ => False) (compileAtEnd C s1).1 := by
      unfold compileAtEnd
      split
      · split <;> exact awake_same ih rfl rfl rfl rfl rfl rfl rfl
      · exact ih
    rw [hs] at this; exact this

end Verif
