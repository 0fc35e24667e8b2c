import Verif.Lemmas.Awake
import Verif.Lemmas.Hark
/-! # What processes wait for -/
namespace Verif
open Verif.Spec

variable {A B : Type} {s s' : Sim} {p : ℕ}

/-! ## What the code of processes does -/

/-- There are no processes with numbers that have not been given. -/
def Vacant (s : Sim) : Prop := ∀ p, s.next ≤ p → s.points p = Option.none

/-- The event exists and has been triggered. -/
def On (s : Sim) (ev : ℕ) : Prop := ev < s.next ∧ s.triggered ev = true

/-- Events and callbacks remain, other processes are left alone, new ones have not been started, conditions are built by themselves. -/
structure Leans (s s' : Sim) : Prop where
  next : s.next ≤ s'.next
  trig : ∀ x < s.next, s.triggered x = true → s'.triggered x = true
  cbs : ∀ x < s.next, ∀ cb ∈ s.cbs x, cb ∈ s'.cbs x
  pts : ∀ p < s.next, s'.points p = s.points p ∧ s'.target p = s.target p
  new : ∀ p pt, s.next ≤ p → s'.points p = some pt → p < s'.next ∧ pt.isNew = true ∧ On s' (s'.target p)
  blds : ∀ ev c a b, .build c a b ∈ s'.cbs ev → .build c a b ∈ s.cbs ev ∨ ev = c
  stops : ∀ x < s.next, .stop ∈ s'.cbs x → .stop ∈ s.cbs x

theorem leans_refl (h : Vacant s) : Leans s s := ⟨le_rfl, fun _ _ h => h, fun _ _ _ h => h, fun _ _ => ⟨rfl, rfl⟩, (fun p pt hp hs => by rw [h p hp] at hs; cases hs), fun _ _ _ _ h => .inl h, fun _ _ h => h⟩

theorem on_leans (h : Leans s s') {x : ℕ} (hx : On s x) : On s' x := ⟨hx.1.trans_le h.next, h.trig x hx.1 hx.2⟩

theorem leans_trans {a b c : Sim} (h1 : Leans a b) (h2 : Leans b c) : Leans a c := by
  refine ⟨h1.next.trans h2.next, fun x hx h => h2.trig x (hx.trans_le h1.next) (h1.trig x hx h), fun x hx cb h => h2.cbs x (hx.trans_le h1.next) cb (h1.cbs x hx cb h),
    fun p hp => ⟨(h2.pts p (hp.trans_le h1.next)).1.trans (h1.pts p hp).1, (h2.pts p (hp.trans_le h1.next)).2.trans (h1.pts p hp).2⟩, fun p pt hp hs => ?_, fun ev x y z h => ?_, fun x hx h => h1.stops x hx (h2.stops x (hx.trans_le h1.next) h)⟩
  · by_cases hb : p < b.next
    · obtain ⟨e1, e2⟩ := h2.pts p hb
      rw [e1] at hs
      obtain ⟨a1, a2, a3⟩ := h1.new p pt hp hs
      rw [e2]
      exact ⟨a1.trans_le h2.next, a2, on_leans h2 a3⟩
    · exact h2.new p pt (not_lt.1 hb) hs
  · rcases h2.blds ev x y z h with h | h
    · exact h1.blds ev x y z h
    · exact .inr h

theorem vacant_leans (h : Leans s s') : Vacant s → Vacant s' := fun hv p hp => by
  rcases hs : s'.points p with _ | pt
  · rfl
  · exact absurd (h.new p pt (h.next.trans hp) hs).1 (not_lt.2 hp)

/-- A piece of code that does no more than this. -/
def Leaning (m : SimM A) (s : Sim) (Q : Sim → A → Prop) : Prop := Vacant s → Leans s (m s).1 ∧ ∀ a, (m s).2 = .ok a → Q (m s).1 a

/-- The same in all states, whatever the result. -/
def Tilts (m : SimM A) : Prop := ∀ s, Leaning m s (fun _ _ => True)

theorem leaning_bind {m : SimM A} {f : A → SimM B} {Q : Sim → A → Prop} {Q' : Sim → B → Prop} (hm : Leaning m s Q) (hf : ∀ a s', Leans s s' → Q s' a → Leaning (f a) s' Q') : Leaning (m >>= f) s Q' := by
  intro hv
  obtain ⟨h1, h2⟩ := hm hv
  show Leans s (SimM.bind m f s).1 ∧ ∀ a, (SimM.bind m f s).2 = .ok a → Q' (SimM.bind m f s).1 a
  unfold SimM.bind
  rcases h : m s with ⟨s1, e | a⟩
  · rw [h] at h1; exact ⟨h1, by simp⟩
  · rw [h] at h1 h2
    obtain ⟨h3, h4⟩ := hf a s1 h1 (h2 a rfl) (vacant_leans h1 hv)
    exact ⟨leans_trans h1 h3, h4⟩

theorem leaning_mono {m : SimM A} {Q Q' : Sim → A → Prop} (h : Leaning m s Q) (hq : ∀ s' a, Q s' a → Q' s' a) : Leaning m s Q' := fun hv => ⟨(h hv).1, fun a ha => hq _ a ((h hv).2 a ha)⟩

theorem leaning_pure {a : A} {Q : Sim → A → Prop} (hq : Q s a) : Leaning (pure a) s Q := fun hv => ⟨leans_refl hv, fun b h => by cases h; exact hq⟩
theorem leaning_throw {e : PyErr} {Q : Sim → A → Prop} : Leaning (SimM.throw e : SimM A) s Q := fun hv => ⟨leans_refl hv, fun _ h => by cases h⟩
theorem leaning_get {f : Sim → A} : Leaning (SimM.get f) s (fun s' a => s' = s ∧ a = f s) := fun hv => ⟨leans_refl hv, fun _ h => by cases h; exact ⟨rfl, rfl⟩⟩
theorem leaning_tilts {m : SimM A} (h : Tilts m) : Leaning m s (fun _ _ => True) := h s
theorem leaning_then {m : SimM A} {f : A → SimM B} {Q' : Sim → B → Prop} (hm : Tilts m) (hf : ∀ a s', Leaning (f a) s' Q') : Leaning (m >>= f) s Q' := leaning_bind (hm s) fun a s' _ _ => hf a s'

theorem tilts_bind {m : SimM A} {f : A → SimM B} (hm : Tilts m) (hf : ∀ a, Tilts (f a)) : Tilts (m >>= f) := fun _ => leaning_then hm fun a s' => hf a s'
theorem tilts_pure {a : A} : Tilts (pure a) := fun _ => leaning_pure trivial
theorem tilts_throw {e : PyErr} : Tilts (SimM.throw e : SimM A) := fun _ => leaning_throw
theorem tilts_get {f : Sim → A} : Tilts (SimM.get f) := fun _ => leaning_mono leaning_get fun _ _ _ => trivial
theorem tilts_ite {b : Prop} [Decidable b] {m m' : SimM A} (h : Tilts m) (h' : Tilts m') : Tilts (if b then m else m') := by split <;> assumption

/-- Nothing that matters here changes. -/
theorem leans_same (hv : Vacant s) (h1 : s'.next = s.next) (h2 : s'.events = s.events) (h3 : s'.points = s.points) (h4 : s'.target = s.target) : Leans s s' := by
  have hc : ∀ x, s'.cbs x = s.cbs x := fun x => by unfold Sim.cbs; rw [h2]
  exact ⟨h1.ge, fun x _ h => by unfold Sim.triggered at *; rw [h2]; exact h, fun x _ cb h => by rw [hc]; exact h, fun p _ => ⟨by rw [h3], by rw [h4]⟩, (fun p pt hp hs => by rw [h3, hv p hp] at hs; cases hs),
    fun ev c a b h => by rw [hc] at h; exact .inl h, fun x _ h => by rw [hc] at h; exact h⟩

theorem tilts_set {f : Sim → Sim} (h : ∀ s : Sim, (f s).next = s.next ∧ (f s).events = s.events ∧ (f s).points = s.points ∧ (f s).target = s.target) : Tilts (SimM.set f) := fun s hv =>
  ⟨leans_same hv (h s).1 (h s).2.1 (h s).2.2.1 (h s).2.2.2, fun _ _ => trivial⟩

theorem leans_alloc (hv : Vacant s) {E : SEv} (hE : ∀ c a b, .build c a b ∈ E.callbacks.getD [] → s.next = c) : Leans s (s.alloc E) := by
  refine ⟨Nat.le_succ _, fun x hx h => (triggered_alloc_old (E := E) hx).trans h, fun x hx cb h => by rw [cbs_alloc_old (Nat.ne_of_lt hx)]; exact h, fun _ _ => ⟨rfl, rfl⟩,
    (fun p pt hp hs => by rw [show (s.alloc E).points p = _ from hv p hp] at hs; cases hs), fun ev c a b h => ?_, fun x hx h => by rwa [cbs_alloc_old (Nat.ne_of_lt hx)] at h⟩
  by_cases he : ev = s.next
  · subst he; rw [cbs_alloc_new] at h; exact .inr (hE c a b h)
  · rw [cbs_alloc_old he] at h; exact .inl h

theorem leans_schedule (hv : Vacant s) (ev : ℕ) (u : Bool) (d : ℚ) : Leans s (s.schedule ev u d) := leans_same hv rfl rfl rfl rfl

theorem leans_timer (hv : Vacant s) {E : SEv} (u : Bool) (d : ℚ) (hE : ∀ c a b, .build c a b ∉ E.callbacks.getD []) : Leans s ((s.alloc E).schedule s.next u d) :=
  have h := leans_alloc hv (E := E) fun c a b h => absurd h (hE c a b)
  leans_trans h (leans_schedule (vacant_leans h hv) _ _ _)

theorem tilts_newEvent : Tilts newEvent := fun s hv => ⟨leans_alloc hv (by simp), fun _ _ => trivial⟩

theorem leans_trigger (hv : Vacant s) (ev : ℕ) (v : Except PyErr SVal) : Leans s (s.trigger ev v) :=
  ⟨le_rfl, fun x _ h => isSome_fset (fun _ => rfl) h, fun x _ cb h => by rw [cbs_trigger]; exact h, fun _ _ => ⟨rfl, rfl⟩, (fun p pt hp hs => by rw [show (s.trigger ev v).points p = _ from hv p hp] at hs; cases hs),
    fun x c a b h => by rw [cbs_trigger] at h; exact .inl h, fun x _ h => by rw [cbs_trigger] at h; exact h⟩

theorem leans_addCallback (hv : Vacant s) {ev : ℕ} {cb : Callback} (hc : ∀ c a b, cb ≠ .build c a b) (hs : cb ≠ .stop) : Leans s (s.addCallback ev cb) :=
  ⟨le_rfl, fun x _ h => by unfold Sim.triggered at *; rw [value_addCallback]; exact h, fun x _ cb h => mem_addCallback_old h, fun _ _ => ⟨rfl, rfl⟩,
    (fun p pt hp hs => by rw [show (s.addCallback ev cb).points p = _ from hv p hp] at hs; cases hs), fun x c a b h => by
      rcases mem_addCallback h with h | ⟨h, _⟩
      · exact .inl h
      · exact absurd h.symm (hc c a b), fun x _ h => by
      rcases mem_addCallback h with h | ⟨h, _⟩
      · exact h
      · exact absurd h.symm hs⟩

theorem tilts_succeed {ev : ℕ} : Tilts (succeed ev) := fun s hv => by
  unfold succeed
  split
  · exact ⟨leans_refl hv, fun _ _ => trivial⟩
  · exact ⟨leans_trigger hv ev _, fun _ _ => trivial⟩

theorem leaning_timeout {d : ℚ} : Leaning (timeout d) s On := fun hv => by
  unfold timeout
  split
  · exact ⟨leans_refl hv, fun _ h => by cases h⟩
  · refine ⟨leans_timer hv _ _ (by simp), fun a h => ?_⟩
    cases h
    exact ⟨Nat.lt_succ_self _, by show ((s.alloc _).events s.next).value.isSome = true; rw [events_alloc_new]; rfl⟩

theorem tilts_timeout {d : ℚ} : Tilts (timeout d) := fun _ => leaning_mono leaning_timeout fun _ _ _ => trivial

theorem tilts_interrupt {r : ℕ} : Tilts (interruptProcess r) := fun s hv => by
  unfold interruptProcess
  split
  · exact ⟨leans_refl hv, fun _ h => trivial⟩
  · exact ⟨leans_timer hv _ _ (by simp), fun _ _ => trivial⟩

/-- A process that works for another one: it exists, and has ended or is a helper. -/
def Stands (s : Sim) (x : ℕ) : Prop := x < s.next ∧ (s.triggered x = true ∨ ∃ pt, s.points x = some pt ∧ pt.helper = true)

theorem stands_leans (h : Leans s s') {x : ℕ} (hx : Stands s x) : Stands s' x :=
  ⟨hx.1.trans_le h.next, hx.2.imp (h.trig x hx.1) fun ⟨pt, h1, h2⟩ => ⟨pt, (h.pts x hx.1).1.trans h1, h2⟩⟩

theorem leaning_process {pt : Pt} (hn : pt.isNew = true) : Leaning (process pt) s (fun s' a => s'.points a = some pt ∧ a < s'.next ∧ (s'.events a).callbacks.isSome ∧ .stop ∉ s'.cbs a) := fun hv => by
  rw [process_eq]
  have hcb : ∀ x, (s.withProcess pt).cbs x = if x = s.next + 1 then [.resume s.next] else if x = s.next then [] else s.cbs x := fun x => by
    unfold Sim.cbs
    rw [events_withProcess]
    split
    · rfl
    · split <;> rfl
  refine ⟨?_, fun a ha => ?_⟩
  · show Leans s ((s.withProcess pt).schedule (s.next + 1) true 0)
    refine ⟨Nat.le_add_right _ 2, fun x hx h => ?_, fun x hx cb h => ?_, fun q hq => ⟨fset_other _ _ (Nat.ne_of_lt hq), fset_other _ _ (Nat.ne_of_lt hq)⟩, fun q pt' hq hs => ?_, fun ev c a b h => ?_, fun x hx h => ?_⟩
    · show ((s.withProcess pt).events x).value.isSome = true
      rw [events_withProcess_old hx]; exact h
    · show cb ∈ (s.withProcess pt).cbs x
      rw [hcb, if_neg (by omega), if_neg (by omega)]; exact h
    · have hs : fset s.points s.next (some pt) q = some pt' := hs
      by_cases he : q = s.next
      · subst he
        rw [fset_same] at hs
        cases hs
        refine ⟨Nat.lt_add_of_pos_right (by omega), hn, ?_⟩
        show On _ (fset s.target s.next (s.next + 1) s.next)
        rw [fset_same]
        refine ⟨Nat.lt_succ_self _, ?_⟩
        show ((s.withProcess pt).events (s.next + 1)).value.isSome = true
        rw [events_withProcess, if_pos rfl]; rfl
      · rw [fset_other _ _ he, hv q hq] at hs; cases hs
    · have h : Callback.build c a b ∈ (s.withProcess pt).cbs ev := h
      rw [hcb] at h
      split at h
      · simp at h
      · split at h
        · cases h
        · exact .inl h
    · have h : Callback.stop ∈ (s.withProcess pt).cbs x := h
      rw [hcb, if_neg (by omega), if_neg (by omega)] at h; exact h
  · cases ha
    refine ⟨fset_same _ _ _, Nat.lt_add_of_pos_right (by omega), ?_, fun h => ?_⟩
    · show ((s.withProcess pt).events s.next).callbacks.isSome = true
      rw [events_withProcess, if_neg (by omega), if_pos rfl]; rfl
    · have h : Callback.stop ∈ (s.withProcess pt).cbs s.next := h
      rw [hcb, if_neg (by omega), if_pos rfl] at h; cases h

theorem tilts_process {pt : Pt} (hn : pt.isNew = true) : Tilts (process pt) := fun _ => leaning_mono (leaning_process hn) fun _ _ _ => trivial

/-- One of the two events of a condition. -/
theorem leans_check (hv : Vacant s) (c ev : ℕ) : Leans s (if s.processed ev then (if s.triggered c then s else s.trigger c (.ok .nothing)) else s.addCallback ev (.check c)) := by
  split
  · split
    · exact leans_refl hv
    · exact leans_trigger hv _ _
  · exact leans_addCallback hv (by simp) (by simp)

theorem leaning_anyOf {a b : ℕ} (ha : a < s.next) (ho : (s.events a).callbacks.isSome) : Leaning (anyOf a b) s (fun s' c => .check c ∈ s'.cbs a ∧ c < s'.next) := fun hv => by
  have h0 : Leans s (s.alloc ⟨Option.none, false, some [.build s.next a b]⟩) := leans_alloc hv fun c x y h => by simp at h; exact h.1.symm
  have hv1 := vacant_leans h0 hv
  have h1 := leans_check hv1 s.next a
  have h2 := leans_check (vacant_leans h1 hv1) s.next b
  refine ⟨leans_trans h0 (leans_trans h1 h2), fun c hc => ?_⟩
  cases hc
  have hnp : (s.alloc ⟨Option.none, false, some [.build s.next a b]⟩).processed a = false := by
    unfold Sim.processed
    rw [events_alloc_old (Nat.ne_of_lt ha)]
    cases hcb : (s.events a).callbacks with
    | none => rw [hcb] at ho; cases ho
    | some l => rfl
  have hl : s.next < (s.alloc ⟨Option.none, false, some [.build s.next a b]⟩).next := Nat.lt_succ_self _
  refine ⟨h2.cbs a ((ha.trans_le h0.next).trans_le h1.next) _ ?_, (hl.trans_le h1.next).trans_le h2.next⟩
  rw [if_neg (by rw [hnp]; simp)]
  have : ((s.alloc ⟨Option.none, false, some [.build s.next a b]⟩).events a).callbacks.isSome := by rw [events_alloc_old (Nat.ne_of_lt ha)]; exact ho
  obtain ⟨l, hl⟩ := Option.isSome_iff_exists.1 this
  unfold Sim.cbs Sim.addCallback
  simp [fset, hl]

theorem tilts_activateOf {name : String} : Tilts (activateOf name) := fun s hv => by
  unfold activateOf
  cases alook name s.activate <;> exact ⟨leans_refl hv, fun _ _ => trivial⟩

theorem tilts_interruptExtra {name : String} : Tilts (interruptExtra name) := fun s hv => by
  unfold interruptExtra
  cases alook name s.extra with
  | none => exact ⟨leans_refl hv, fun _ _ => trivial⟩
  | some p => exact tilts_interrupt s hv

macro "tiltset" : tactic => `(tactic| (refine tilts_set fun _ => ?_; exact ⟨rfl, rfl, rfl, rfl⟩))

macro "tilts" : tactic => `(tactic| repeat' with_reducible first
  | assumption
  | exact tilts_pure | exact tilts_throw | exact tilts_get | exact tilts_newEvent | exact tilts_succeed | exact tilts_activateOf | exact tilts_interruptExtra
  | exact tilts_interrupt | exact tilts_timeout | exact tilts_process rfl
  | tiltset
  | refine tilts_ite ?_ ?_
  | refine tilts_bind ?_ fun _ => ?_)

theorem tilts_setStarted {l : Sim → List PItem} : Tilts (SimM.set (fun s => s.setStarted (l s))) := tilts_set fun s => by
  obtain ⟨_, h1, h2, h3, h4, _⟩ := aside_setStarted s (l s)
  exact ⟨h1, h4, h2, h3⟩

theorem tilts_activateProc {e : Ev} : Tilts (activateProc e) := by
  rcases activateProc_cases e with hp | hp <;> rw [hp]
  · exact tilts_pure
  · intro s hv
    dsimp only
    split
    · exact ⟨leans_refl hv, fun _ _ => trivial⟩
    · exact tilts_succeed s hv

theorem tilts_print {e : Ev} : Tilts (printEvent e) := by
  rcases printEvent_cases e with ⟨_, hu⟩ | ⟨_, hu⟩ <;> rw [hu]
  · exact tilts_pure
  · tiltset

theorem tilts_envInteraction : Tilts envInteraction := fun s hv => by
  unfold envInteraction
  have h0 : Tilts (SimM.set (fun s => { s with w := { s.w with interaction := [] } })) := by tiltset
  cases s.w.env with
  | none => exact ⟨leans_refl hv, fun _ _ => trivial⟩
  | some env =>
    dsimp only
    split
    · exact tilts_bind (tilts_succeed (ev := s.envActivate)) (fun _ => h0) s hv
    · exact h0 s hv

theorem tilts_renew {name : String} : Tilts (renewActivate name) := by unfold renewActivate; tilts
theorem tilts_envNext {pro : ℕ} : Tilts (envNext pro) := by unfold envNext; tilts

theorem tilts_notify (x : PItem) : Tilts (notify x) := by
  cases x with
  | procedural => exact tilts_throw
  | gen name i d =>
    unfold notify
    refine tilts_bind tilts_activateOf fun a => tilts_bind tilts_get fun busy => tilts_ite (tilts_bind tilts_get fun old => ?_) ?_
    · cases old with
      | none => exact tilts_pure
      | some j => dsimp only; tilts
    · tilts

theorem tilts_notifyAll : ∀ l : List PItem, Tilts (notifyAll l)
  | [] => tilts_pure
  | x :: r => tilts_bind (tilts_notify x) fun _ => tilts_notifyAll r

theorem tilts_procsReturned {v : SVal} : Tilts (procsReturned v) := by
  cases v with
  | procs => unfold procsReturned; tiltset
  | _ => exact tilts_throw

theorem tilts_startAutomatic {name : String} {i : ℕ} {d : Desc} : Tilts (startAutomatic name i d) := by
  have h0 := tilts_setStarted (l := fun s => s.startedList ++ [.gen name i d])
  unfold startAutomatic
  refine tilts_bind h0 fun _ => tilts_bind tilts_activateOf fun a => tilts_bind tilts_get fun busy => tilts_ite (tilts_bind tilts_get fun old => ?_) ?_
  · cases old with
    | none => exact tilts_throw
    | some j => dsimp only; tilts
  · tilts

theorem tilts_automatic {name : String} : Tilts (automatic name) := fun s hv => by
  unfold automatic
  cases s.w.buf name with
  | none => exact ⟨leans_refl hv, fun _ _ => trivial⟩
  | some b =>
    dsimp only
    cases automaticFor name b s.w.onScreen s.now with
    | none => exact ⟨leans_refl hv, fun _ _ => trivial⟩
    | some d =>
      have h1 : Leans s { s with w := { s.w with nextId := s.w.nextId + 1 } } := leans_same hv rfl rfl rfl rfl
      have h2 := tilts_startAutomatic (name := name) (i := s.w.nextId) (d := d) { s with w := { s.w with nextId := s.w.nextId + 1 } } (vacant_leans h1 hv)
      exact ⟨leans_trans h1 h2.1, fun _ _ => trivial⟩

theorem tilts_automaticAll : ∀ l : List String, Tilts (automaticAll l)
  | [] => tilts_pure
  | _ :: r => tilts_bind tilts_automatic fun _ => tilts_automaticAll r

/-! ## Where processes wait -/

/-- What is known of a process at this place that waits for `ev`; the callbacks `L` are going to be called. -/
def Supports (L : List Callback) (s : Sim) (ev : ℕ) : Pt → Prop
  | .procIdle | .extraIdle _ => True
  | .procFirst | .procAgain | .extraMain _ _ | .extraCont _ => Stands s ev
  | .envWait pro _ => On s ev ∨ ev < s.next ∧ (.check ev ∈ s.cbs pro ∨ .check ev ∈ L) ∧ .stop ∉ s.cbs pro ∧ Stands s pro
  | _ => On s ev

theorem supports_leans {L : List Callback} {ev : ℕ} {pt : Pt} (h : Leans s s') (hb : Supports L s ev pt) : Supports L s' ev pt := by
  cases pt with
  | procIdle | extraIdle => trivial
  | procFirst | procAgain | extraMain | extraCont => exact stands_leans h hb
  | envWait pro k => exact hb.imp (on_leans h) fun ⟨a, b, d, c⟩ => ⟨a.trans_le h.next, b.imp_left (h.cbs pro c.1 _), fun hs => d (h.stops pro c.1 hs), stands_leans h c⟩
  | procNew | procSpin | extraNew | localNew | localWait | envNew | envProcNew | envProc => exact on_leans h hb

/-- The result of the code of a process; helpers remain helpers. -/
def SupportsRes (o : Bool) (s : Sim) (r : Res) : Prop := ∀ ev pt, r = .wait ev pt → Supports [] s ev pt ∧ (o = true → pt.helper = true)

theorem supports_done {o : Bool} {v : SVal} : Leaning (pure (.done v)) s (SupportsRes o) := leaning_pure fun _ _ h => by cases h

theorem leaning_localRun {o : Bool} {name : String} {r : Out Mach YV Unit} : Leaning (localRun name r) s (SupportsRes o) := by
  have hset : ∀ w : Mach, Tilts (SimM.set (fun s => { s with w := w })) := fun w => by tiltset
  cases r with
  | yield w y k =>
    cases y with
    | ev e =>
      refine leaning_then (hset w) fun _ s1 => leaning_then tilts_get fun now s2 => leaning_bind leaning_timeout fun t s3 _ ht => leaning_pure fun ev pt he => ?_
      cases he
      exact ⟨ht, fun _ => rfl⟩
    | cont d => exact leaning_then (hset w) fun _ _ => supports_done
    | procs => exact leaning_then (hset w) fun _ _ => supports_done
    | nothing => exact leaning_then (hset w) fun _ _ => supports_done
  | ret w r => exact leaning_then (hset w) fun _ _ => supports_done
  | raise w x => exact leaning_then (hset w) fun _ _ => leaning_throw

theorem leaning_localResume {o : Bool} {name : String} {e : Ev} {k : Mach → Out Mach YV Unit} {x : Except PyErr SVal} : Leaning (localResume name e k x) s (SupportsRes o) := by
  unfold localResume
  split
  · exact supports_done
  · exact leaning_throw
  · exact leaning_then tilts_print fun _ _ => leaning_then tilts_activateProc fun _ _ => leaning_then tilts_envInteraction fun _ _ => leaning_then tilts_get fun _ _ => leaning_localRun

/-- A process is started, and waited for. -/
theorem leaning_start {g : Pt} {f : ℕ → Pt} (hn : g.isNew = true) (hh : g.helper = true) (hf : ∀ (s : Sim) pro, Stands s pro → Supports [] s pro (f pro)) :
    Leaning (do let pro ← process g; pure (.wait pro (f pro)) : SimM Res) s (SupportsRes false) :=
  leaning_bind (leaning_process hn) fun pro s1 _ h => leaning_pure fun ev pt he => by
    cases he
    exact ⟨hf _ _ ⟨h.2.1, .inr ⟨_, h.1, hh⟩⟩, fun h => by cases h⟩

theorem leaning_procCycle (C : Cfg) {pt : Pt} (hf : ∀ (s : Sim) pro, Stands s pro → Supports [] s pro pt) : Leaning (procCycle C pt) s (SupportsRes false) :=
  leaning_then tilts_get fun _ _ => leaning_start rfl rfl hf

theorem leaning_procSpins {n : ℕ} : Leaning (procSpins n) s (SupportsRes false) := by
  unfold procSpins
  refine leaning_bind leaning_timeout fun t s1 _ ht => leaning_pure fun ev pt he => ?_
  cases he
  exact ⟨ht, fun h => by cases h⟩

theorem leaning_procLoop : Leaning procLoop s (SupportsRes false) := by
  unfold procLoop
  refine leaning_then tilts_get fun l s1 => ?_
  split
  · exact leaning_then (tilts_setStarted (l := fun _ => removeProcedural l)) fun _ _ => leaning_then tilts_get fun l' _ => leaning_then (tilts_notifyAll l') fun _ _ => leaning_procSpins
  · refine leaning_then tilts_get fun a s2 => leaning_then tilts_get fun gone s3 => ?_
    split
    · exact leaning_procSpins
    · refine leaning_pure fun ev pt he => ?_
      cases he
      exact ⟨trivial, fun h => by cases h⟩

theorem leaning_extraLoop (C : Cfg) {name : String} : Leaning (extraLoop C name) s (SupportsRes false) := by
  have hidle : ∀ (a : ℕ) (s : Sim), Leaning (pure (.wait a (.extraIdle name)) : SimM Res) s (SupportsRes false) := fun a s => leaning_pure fun ev pt he => by
    cases he
    exact ⟨trivial, fun h => by cases h⟩
  unfold extraLoop
  refine leaning_then tilts_get fun l s1 => ?_
  rcases takeFor name l with x | _ | ⟨⟨i, d⟩, rest⟩
  · exact leaning_throw
  · refine leaning_then (by tiltset) fun _ s2 => leaning_then tilts_activateOf fun a s3 => leaning_then tilts_get fun gone s4 => ?_
    split
    · exact leaning_then tilts_renew fun a' s5 => hidle a' s5
    · exact hidle a s4
  · refine leaning_then (tilts_setStarted (l := fun _ => rest)) fun _ s2 => leaning_then tilts_activateOf fun a s3 => leaning_then tilts_get fun busy s4 => ?_
    have hstart : ∀ s, Leaning (do let pro ← process (.localNew name (d.run C)); pure (.wait pro (.extraMain name pro)) : SimM Res) s (SupportsRes false) := fun s => leaning_start rfl rfl fun _ _ h => h
    dsimp only
    split
    · exact hstart s4
    · exact leaning_then tilts_succeed fun _ s5 => hstart s5

theorem leaning_extraAfterMain (C : Cfg) {name : String} {pro : ℕ} {x : Except PyErr SVal} : Leaning (extraAfterMain C name pro x) s (SupportsRes false) := by
  unfold extraAfterMain
  split
  · refine leaning_then tilts_get fun over s1 => ?_
    dsimp only
    split
    · exact leaning_extraLoop C
    · exact leaning_then tilts_interrupt fun _ s2 => leaning_extraLoop C
  · exact leaning_throw
  · exact leaning_start rfl rfl fun _ _ h => h
  · exact leaning_extraLoop C

theorem leaning_extraAfterCont (C : Cfg) {name : String} {x : Except PyErr SVal} : Leaning (extraAfterCont C name x) s (SupportsRes false) := by
  unfold extraAfterCont
  split
  · exact leaning_extraLoop C
  · exact leaning_throw
  · exact leaning_extraLoop C

theorem leaning_envIter {e : EnvEvent} {k : Mach → Out Mach EnvEvent Unit} : Leaning (envIter e k) s (SupportsRes false) := by
  unfold envIter
  refine leaning_bind (leaning_process rfl) fun pro s1 _ h1 => leaning_bind leaning_get fun a s2 _ h2 => ?_
  obtain ⟨rfl, -⟩ := h2
  refine leaning_bind (leaning_anyOf h1.2.1 h1.2.2.1) fun c s3 h3 hc => leaning_pure fun ev pt he => ?_
  cases he
  exact ⟨.inr ⟨hc.2, .inl hc.1, fun hs => h1.2.2.2 (h3.stops _ h1.2.1 hs), stands_leans h3 ⟨h1.2.1, .inr ⟨_, h1.1, rfl⟩⟩⟩, fun h => by cases h⟩

/-- The world is set before a piece of code. -/
theorem leaning_w {m : SimM A} {Q : Sim → A → Prop} {w : Mach} (h : ∀ s, Leaning m s Q) (hv : Vacant s) : Leans s (m { s with w := w }).1 ∧ ∀ a, (m { s with w := w }).2 = .ok a → Q (m { s with w := w }).1 a := by
  have h1 : Leans s { s with w := w } := leans_same hv rfl rfl rfl rfl
  obtain ⟨h2, h3⟩ := h { s with w := w } (vacant_leans h1 hv)
  exact ⟨leans_trans h1 h2, h3⟩

theorem leaning_envStart (C : Cfg) : Leaning (envStart C) s (SupportsRes false) := fun hv => by
  cases ha : s.envArgs with
  | none =>
    have : envStart C s = (s, .error .type) := by simp only [envStart, ha]
    rw [this]; exact ⟨leans_refl hv, by simp⟩
  | some a =>
    rcases ho : envProcess (fun env (w : Mach) => { w with env := some env }) envOf C.upper a.stimuli a.triggers a.times a.startTime s.w with ⟨w, e, k⟩ | ⟨w, r⟩ | ⟨w, x⟩
    · have : envStart C s = envIter e k { s with w := w } := by simp only [envStart, ha, ho]
      rw [this]; exact leaning_w (fun _ => leaning_envIter) hv
    · have : envStart C s = (SimM.throw .runtime : SimM Res) { s with w := w } := by simp only [envStart, ha, ho]; rfl
      rw [this]; exact leaning_w (fun _ => leaning_throw) hv
    · have : envStart C s = (SimM.throw x : SimM Res) { s with w := w } := by simp only [envStart, ha, ho]; rfl
      rw [this]; exact leaning_w (fun _ => leaning_throw) hv

theorem leaning_envAdvance {k : Mach → Out Mach EnvEvent Unit} : Leaning (envAdvance k) s (SupportsRes false) := fun hv => by
  unfold envAdvance
  cases k s.w with
  | yield w e k' => exact leaning_w (m := (do automaticAll (w.bufs.map Prod.fst); envIter e k' : SimM Res)) (fun _ => leaning_then (tilts_automaticAll _) fun _ _ => leaning_envIter) hv
  | ret w r => exact leaning_w (m := (pure (.done .nothing) : SimM Res)) (fun _ => supports_done) hv
  | raise w x => exact leaning_w (m := (SimM.throw x : SimM Res)) (fun _ => leaning_throw) hv

theorem leaning_envProcStart {o : Bool} {e : Ev} : Leaning (envProcStart e) s (SupportsRes o) := fun hv => by
  have ht := leaning_timeout (d := e.time - s.now) hv
  unfold envProcStart
  rcases hr : timeout (e.time - s.now) s with ⟨s1, x | t⟩
  · rw [hr] at ht
    have h2 : Leaning (do activateProc e; .throw x : SimM Res) s1 (SupportsRes o) := leaning_then tilts_activateProc fun _ _ => leaning_throw
    obtain ⟨h3, h4⟩ := h2 (vacant_leans ht.1 hv)
    exact ⟨leans_trans ht.1 h3, h4⟩
  · rw [hr] at ht
    refine ⟨ht.1, fun a ha ev pt he => ?_⟩
    cases ha; cases he
    exact ⟨ht.2 t rfl, fun _ => rfl⟩

theorem leaning_envProcResume {o : Bool} {e : Ev} {x : Except PyErr SVal} : Leaning (envProcResume e x) s (SupportsRes o) := by
  unfold envProcResume
  split
  · exact leaning_then tilts_activateProc fun _ _ => supports_done
  · exact leaning_then tilts_activateProc fun _ _ => leaning_throw
  · exact leaning_then tilts_print fun _ _ => leaning_then tilts_activateProc fun _ _ => supports_done

theorem leaning_code (C : Cfg) {pt : Pt} {x : Except PyErr SVal} : Leaning (code C pt x) s (SupportsRes pt.helper) := by
  cases pt with
  | extraMain name pro => exact leaning_extraAfterMain C
  | extraCont name => exact leaning_extraAfterCont C
  | localWait name e k => exact leaning_localResume
  | envProc e => exact leaning_envProcResume
  | procNew => rcases x with x | v <;> [exact leaning_throw; exact leaning_procCycle C fun _ _ h => h]
  | procFirst => rcases x with x | v <;> [exact leaning_throw; exact leaning_then tilts_procsReturned fun _ _ => leaning_procLoop]
  | procIdle => rcases x with x | v <;> [exact leaning_throw; exact leaning_procSpins]
  | procSpin n =>
    rcases x with x | v
    · exact leaning_throw
    · cases n <;> [exact leaning_procCycle C fun _ _ h => h; exact leaning_procSpins]
  | procAgain =>
    rcases x with x | v
    · exact leaning_throw
    · refine leaning_then tilts_procsReturned fun _ _ => leaning_then tilts_newEvent fun a _ => leaning_then (by tiltset) fun _ _ => leaning_procLoop
  | extraNew name => rcases x with x | v <;> [exact leaning_throw; exact leaning_extraLoop C]
  | extraIdle name => rcases x with x | v <;> [exact leaning_throw; exact leaning_then tilts_renew fun _ _ => leaning_extraLoop C]
  | localNew name g => rcases x with x | v <;> [exact leaning_throw; exact leaning_then tilts_get fun _ _ => leaning_localRun]
  | envNew => rcases x with x | v <;> [exact leaning_throw; exact leaning_envStart C]
  | envWait pro k => rcases x with x | v <;> [exact leaning_throw; exact leaning_then tilts_envNext fun _ _ => leaning_envAdvance]
  | envProcNew e => rcases x with x | v <;> [exact leaning_throw; exact leaning_envProcStart]

end Verif
