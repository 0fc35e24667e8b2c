import Verif.Lemmas.Summon
import Verif.Lemmas.ReadyRun
/-! # Modules are called for the requests that wait for them: the code of processes -/
namespace Verif
open Verif.Spec

variable {A B : Type} {o q : Option String} {s s' : Sim} {p : ℕ}

/-- The module has been called: the event that activates it has been triggered. -/
def Called (s : Sim) (m : String) : Prop := ∀ a, alook m s.activate = some a → s.triggered a = true

/-- The events that activate modules exist. -/
def Known (s : Sim) : Prop := ∀ m a, alook m s.activate = some a → a < s.next

/-- What processes other than those of the rules do to modules, except the module `o`: those for which there are more requests than before have been called, except perhaps `q`. -/
structure Hark (o q : Option String) (s s' : Sim) : Prop where
  next : s.next ≤ s'.next
  known : Known s → Known s'
  trig : ∀ x < s.next, s.triggered x = true → s'.triggered x = true
  act : ∀ m, o ≠ some m → alook m s'.activate = alook m s.activate
  own : s'.started.isSome = s.started.isSome
  ords : ∀ m, o ≠ some m → q ≠ some m → orders m s'.startedList ≤ orders m s.startedList ∨ Called s' m
  procs : s.started.isSome → s'.w.procs = s.w.procs
  extra : s'.extra = s.extra
  pts : ∀ p pt, s'.points p = some pt → s.points p = some pt ∨ (s.next ≤ p ∧ pt.module = Option.none)

theorem hark_refl (s : Sim) : Hark o q s s := ⟨le_rfl, id, fun _ _ h => h, fun _ _ => rfl, rfl, fun _ _ _ => .inl le_rfl, fun _ => rfl, rfl, fun _ _ h => .inl h⟩

theorem called_hark {m : String} (hk : Known s) (h : Hark o q s s') (ho : o ≠ some m) (hc : Called s m) : Called s' m := fun a ha => by
  rw [h.act m ho] at ha
  exact h.trig a (hk m a ha) (hc a ha)

theorem hark_trans {a b c : Sim} (hk : Known a) (h1 : Hark o q a b) (h2 : Hark o q b c) : Hark o q a c := by
  refine ⟨h1.next.trans h2.next, fun h => h2.known (h1.known h), fun x hx h => h2.trig x (hx.trans_le h1.next) (h1.trig x hx h), fun m hm => (h2.act m hm).trans (h1.act m hm), h2.own.trans h1.own,
    fun m ho hq => ?_, fun h => (h2.procs (by rw [h1.own]; exact h)).trans (h1.procs h), h2.extra.trans h1.extra, fun p pt hp => ?_⟩
  · rcases h2.ords m ho hq with h | h
    · rcases h1.ords m ho hq with h' | h'
      · exact .inl (h.trans h')
      · exact .inr (called_hark (h1.known hk) h2 ho h')
    · exact .inr h
  · rcases h2.pts p pt hp with h | ⟨h, h'⟩
    · exact h1.pts p pt h
    · exact .inr ⟨h1.next.trans h, h'⟩

/-- Code that behaves like this. -/
def Harky (o q : Option String) (m : SimM A) : Prop := ∀ s : Sim, Known s → Hark o q s (m s).1

/-- The code of a process; where it waits, it remains the process of this module, and no request is left if it is idle. -/
def HarkyRes (o q : Option String) (m : SimM Res) : Prop := ∀ s : Sim, Known s → Hark o q s (m s).1 ∧
  ∀ ev pt, (m s).2 = .ok (.wait ev pt) → pt.module = o ∧ ∀ n, pt = .extraIdle n → orders n (m s).1.startedList = 0

theorem harky_bind {m : SimM A} {f : A → SimM B} (hm : Harky o q m) (hf : ∀ a, Harky o q (f a)) : Harky o q (m >>= f) := by
  intro s hl
  show Hark o q s (SimM.bind m f s).1
  unfold SimM.bind
  have h1 := hm s hl
  rcases h : m s with ⟨s1, e | a⟩
  · rw [h] at h1; exact h1
  · rw [h] at h1; exact hark_trans hl h1 (hf a s1 (h1.known hl))

theorem harky_bindRes {m : SimM A} {f : A → SimM Res} (hm : Harky o q m) (hf : ∀ a, HarkyRes o q (f a)) : HarkyRes o q (m >>= f) := by
  intro s hl
  show Hark o q s (SimM.bind m f s).1 ∧ ∀ ev pt, (SimM.bind m f s).2 = .ok (.wait ev pt) → pt.module = o ∧ ∀ n, pt = .extraIdle n → orders n (SimM.bind m f s).1.startedList = 0
  unfold SimM.bind
  have h1 := hm s hl
  rcases h : m s with ⟨s1, e | a⟩
  · rw [h] at h1; exact ⟨h1, by simp⟩
  · rw [h] at h1
    have h2 := hf a s1 (h1.known hl)
    exact ⟨hark_trans hl h1 h2.1, h2.2⟩

theorem harky_pure {a : A} : Harky o q (pure a) := fun s _ => hark_refl s
theorem harky_throw {e : PyErr} : Harky o q (SimM.throw e : SimM A) := fun s _ => hark_refl s
theorem harky_get {f : Sim → A} : Harky o q (SimM.get f) := fun s _ => hark_refl s
theorem harky_wait {ev : ℕ} {pt : Pt} (h : pt.module = o) (hi : ∀ n, pt ≠ .extraIdle n) : HarkyRes o q (pure (.wait ev pt)) := fun s _ =>
  ⟨hark_refl s, fun _ _ he => by cases he; exact ⟨h, fun n hn => absurd hn (hi n)⟩⟩
theorem harky_done {v : SVal} : HarkyRes o q (pure (.done v)) := fun s _ => ⟨hark_refl s, fun _ _ he => by cases he⟩
theorem harky_throwRes {e : PyErr} : HarkyRes o q (SimM.throw e) := fun s _ => ⟨hark_refl s, fun _ _ he => by cases he⟩

/-- Only events change, and the number of events. -/
theorem hark_events (h0 : s.next ≤ s'.next) (ht : ∀ x < s.next, s.triggered x = true → s'.triggered x = true) (h1 : s'.activate = s.activate) (h2 : s'.started = s.started) (h3 : s'.w.procs = s.w.procs)
    (h4 : s'.extra = s.extra) (h5 : s'.points = s.points) : Hark o q s s' := by
  refine ⟨h0, fun hk m a ha => (hk m a (by rw [← h1]; exact ha)).trans_le h0, ht, fun _ _ => by rw [h1], by rw [h2], fun m _ _ => .inl ?_, fun _ => h3, h4, fun p pt hp => .inl (h5 ▸ hp)⟩
  unfold Sim.startedList
  rw [h2, h3]

theorem hark_same (h0 : s'.next = s.next) (he : s'.events = s.events) (h1 : s'.activate = s.activate) (h2 : s'.started = s.started) (h3 : s'.w.procs = s.w.procs) (h4 : s'.extra = s.extra)
    (h5 : s'.points = s.points) : Hark o q s s' := hark_events h0.ge (fun x _ h => by unfold Sim.triggered at *; rw [he]; exact h) h1 h2 h3 h4 h5

theorem harky_set {f : Sim → Sim} (h : ∀ s : Sim, (f s).next = s.next ∧ (f s).events = s.events ∧ (f s).activate = s.activate ∧ (f s).started = s.started ∧ (f s).w.procs = s.w.procs ∧ (f s).extra = s.extra ∧ (f s).points = s.points) :
    Harky o q (SimM.set f) := fun s _ => hark_same (h s).1 (h s).2.1 (h s).2.2.1 (h s).2.2.2.1 (h s).2.2.2.2.1 (h s).2.2.2.2.2.1 (h s).2.2.2.2.2.2

theorem hark_alloc (s : Sim) (E : SEv) : Hark o q s (s.alloc E) :=
  hark_events (Nat.le_succ _) (fun x hx h => by rw [triggered_alloc_old hx]; exact h) rfl rfl rfl rfl rfl

theorem hark_schedule (s : Sim) (ev : ℕ) (u : Bool) (d : ℚ) : Hark o q s (s.schedule ev u d) := hark_same rfl rfl rfl rfl rfl rfl rfl

theorem hark_timer (s : Sim) (E : SEv) (u : Bool) (d : ℚ) : Hark o q s ((s.alloc E).schedule s.next u d) :=
  hark_events (Nat.le_succ _) (fun x hx h => (triggered_alloc_old (E := E) hx).trans h) rfl rfl rfl rfl rfl

theorem harky_newEvent : Harky o q newEvent := fun s _ => hark_alloc s _

theorem hark_trigger (s : Sim) (ev : ℕ) (v : Except PyErr SVal) : Hark o q s (s.trigger ev v) :=
  hark_events le_rfl (fun _ _ h => isSome_fset (fun _ => rfl) h) rfl rfl rfl rfl rfl

theorem hark_addCallback (s : Sim) (ev : ℕ) (c : Callback) : Hark o q s (s.addCallback ev c) := hark_events le_rfl (fun _ _ h => isSome_fset (fun h => h) h) rfl rfl rfl rfl rfl

theorem harky_succeed {ev : ℕ} : Harky o q (succeed ev) := fun s _ => by
  unfold succeed
  split
  · exact hark_refl s
  · exact hark_trigger s ev _

theorem harky_timeout {d : ℚ} : Harky o q (timeout d) := fun s _ => by
  unfold timeout
  split
  · exact hark_refl s
  · exact hark_timer s _ _ _

theorem harky_process {pt : Pt} (h : pt.module = Option.none) : Harky o q (process pt) := fun s hl => by
  have h1 := hark_alloc (o := o) (q := q) s ⟨Option.none, false, some []⟩
  have h2 := hark_timer (o := o) (q := q) (s.alloc ⟨Option.none, false, some []⟩) ⟨some (.ok .nothing), false, some [.resume s.next]⟩ true 0
  have h3 := hark_trans hl h1 h2
  refine ⟨h3.next, h3.known, h3.trig, h3.act, h3.own, h3.ords, h3.procs, h3.extra, fun p pt' hp => ?_⟩
  have hp : fset s.points s.next (some pt) p = some pt' := hp
  by_cases he : p = s.next
  · subst he; rw [fset_same] at hp; cases hp; exact .inr ⟨le_rfl, h⟩
  · rw [fset_other _ _ he] at hp; exact .inl hp

theorem harky_interrupt {r : ℕ} : Harky o q (interruptProcess r) := fun s _ => by
  unfold interruptProcess
  split
  · exact hark_refl s
  · exact hark_timer s _ _ _

theorem harky_anyOf {a b : ℕ} : Harky o q (anyOf a b) := fun s hl => by
  have key : ∀ (c ev : ℕ) (s : Sim), Hark o q s (if s.processed ev then (if s.triggered c then s else s.trigger c (.ok .nothing)) else s.addCallback ev (.check c)) := fun c ev s => by
    split
    · split
      · exact hark_refl s
      · exact hark_trigger s _ _
    · exact hark_addCallback s _ _
  have h0 : Hark o q s (s.alloc ⟨Option.none, false, some [.build s.next a b]⟩) := hark_alloc s _
  exact hark_trans hl (hark_trans hl h0 (key s.next a _)) (key s.next b _)

theorem harky_activateOf {name : String} : Harky o q (activateOf name) := fun s _ => by
  unfold activateOf
  cases alook name s.activate <;> exact hark_refl s

theorem harky_interruptExtra {name : String} : Harky o q (interruptExtra name) := fun s hl => by
  unfold interruptExtra
  cases alook name s.extra with
  | none => exact hark_refl s
  | some p => exact harky_interrupt s hl

theorem harky_ite {b : Prop} [Decidable b] {m m' : SimM A} (h : Harky o q m) (h' : Harky o q m') : Harky o q (if b then m else m') := by split <;> assumption
theorem harky_iteRes {b : Prop} [Decidable b] {m m' : SimM Res} (h : HarkyRes o q m) (h' : HarkyRes o q m') : HarkyRes o q (if b then m else m') := by split <;> assumption

macro "harkset" : tactic => `(tactic| (refine harky_set fun _ => ?_; exact ⟨rfl, rfl, rfl, rfl, rfl, rfl, rfl⟩))

macro "harky" : tactic => `(tactic| repeat' with_reducible first
  | assumption
  | exact harky_pure | exact harky_throw | exact harky_get | exact harky_newEvent | exact harky_succeed | exact harky_activateOf | exact harky_interruptExtra
  | exact harky_interrupt | exact harky_anyOf | exact harky_timeout | exact harky_process rfl | exact harky_wait rfl (fun _ h => by cases h) | exact harky_done | exact harky_throwRes
  | harkset
  | refine harky_ite ?_ ?_ | refine harky_iteRes ?_ ?_
  | refine harky_bindRes ?_ fun _ => ?_ | refine harky_bind ?_ fun _ => ?_)

/-- The list of processes that were started is set. -/
theorem hark_setStarted {l : List PItem} (h : ∀ m, o ≠ some m → q ≠ some m → orders m l ≤ orders m s.startedList) : Hark o q s (s.setStarted l) := by
  have hl := startedList_setStarted s l
  have ho : (s.setStarted l).started.isSome = s.started.isSome := by
    unfold Sim.setStarted
    cases hs : s.started <;> simp [hs]
  have hp : s.started.isSome → (s.setStarted l).w.procs = s.w.procs := fun h => by
    unfold Sim.setStarted
    cases hs : s.started with
    | none => rw [hs] at h; cases h
    | some _ => rfl
  obtain ⟨_, h1, h2, h3, h4, h5, h6, h7, h8, h9⟩ := aside_setStarted s l
  exact ⟨h1.ge, fun hk m a ha => by rw [h1]; exact hk m a (by rw [← h7]; exact ha), fun x _ ht => by unfold Sim.triggered at *; rw [h4]; exact ht, fun _ _ => by rw [h7], ho,
    fun m a b => .inl (by rw [hl]; exact h m a b), hp, h6, fun p pt hp => .inl (h2 ▸ hp)⟩

theorem harky_activateProc {e : Ev} : Harky o q (activateProc e) := by
  rcases activateProc_cases e with hp | hp <;> rw [hp]
  · exact harky_pure
  · intro s hl
    dsimp only
    split
    · exact hark_refl s
    · exact harky_succeed s hl

theorem harky_print {e : Ev} : Harky o q (printEvent e) := by
  rcases printEvent_cases e with ⟨_, hu⟩ | ⟨_, hu⟩ <;> rw [hu]
  · exact harky_pure
  · harkset

theorem harky_envInteraction : Harky o q envInteraction := fun s hl => by
  unfold envInteraction
  have h0 : Harky o q (SimM.set (fun s => { s with w := { s.w with interaction := [] } })) := by harkset
  cases s.w.env with
  | none => exact hark_refl s
  | some env =>
    dsimp only
    split
    · exact harky_bind (harky_succeed (ev := s.envActivate)) (fun _ => h0) s hl
    · exact h0 s hl

/-- The world is set before a piece of code. -/
theorem harky_w {m : SimM Res} (h : HarkyRes o q m) {s : Sim} {w : Mach} (hk : Leaves s.w w) (hl : Known s) :
    Hark o q s (m { s with w := w }).1 ∧ ∀ ev pt, (m { s with w := w }).2 = .ok (.wait ev pt) → pt.module = o ∧ ∀ n, pt = .extraIdle n → orders n (m { s with w := w }).1.startedList = 0 := by
  have := h { s with w := w } hl
  exact ⟨hark_trans hl (hark_same (s' := { s with w := w }) rfl rfl rfl rfl hk rfl rfl) this.1, this.2⟩

theorem harky_localRun {name : String} {r : Out Mach YV Unit} {s : Sim} (hr : r.Moves Leaves s.w) (hl : Known s) :
    Hark Option.none q s (localRun name r s).1 ∧ ∀ ev pt, (localRun name r s).2 = .ok (.wait ev pt) → pt.module = Option.none ∧ ∀ n, pt = .extraIdle n → orders n (localRun name r s).1.startedList = 0 := by
  have hset : ∀ (w : Mach) (f : Unit → SimM Res), Leaves s.w w → HarkyRes Option.none q (f ()) → Hark Option.none q s ((SimM.set (fun s => { s with w := w }) >>= f) s).1 ∧
      ∀ ev pt, ((SimM.set (fun s => { s with w := w }) >>= f) s).2 = .ok (.wait ev pt) → pt.module = Option.none ∧ ∀ n, pt = .extraIdle n → orders n ((SimM.set (fun s => { s with w := w }) >>= f) s).1.startedList = 0 :=
    fun w f hk hf => harky_w hf hk hl
  cases r with
  | yield w y k =>
    have hwait : ∀ (e : Ev) (t : ℕ), HarkyRes Option.none q (pure (.wait t (.localWait name e k))) := fun e t => harky_wait rfl (fun _ h => by cases h)
    cases y with
    | ev e => exact hset w _ hr.1 (harky_bindRes harky_get fun now => harky_bindRes harky_timeout fun t => hwait e t)
    | cont d => exact hset w _ hr.1 harky_done
    | procs => exact hset w _ hr.1 harky_done
    | nothing => exact hset w _ hr.1 harky_done
  | ret w r => exact hset w _ hr harky_done
  | raise w x => exact hset w _ hr harky_throwRes

theorem harky_resumed {name : String} {k : Mach → Out Mach YV Unit} (h : ∀ w, (k w).Moves Leaves w) : HarkyRes Option.none q (do let w ← SimM.get Sim.w; localRun name (k w) : SimM Res) :=
  fun s hl => harky_localRun (h s.w) hl

theorem harky_localResume {name : String} {e : Ev} {k : Mach → Out Mach YV Unit} {x : Except PyErr SVal} (h : ∀ w, (k w).Moves Leaves w) : HarkyRes Option.none q (localResume name e k x) := by
  unfold localResume
  split
  · exact harky_done
  · exact harky_throwRes
  · exact harky_bindRes harky_print fun _ => harky_bindRes harky_activateProc fun _ => harky_bindRes harky_envInteraction fun _ => harky_resumed h

theorem harky_renew {name : String} : Harky (some name) q (renewActivate name) := fun s _ => by
  show Hark (some name) q s { s.alloc _ with activate := aset name s.next s.activate }
  have h := hark_alloc (o := some name) (q := q) s ⟨Option.none, false, some []⟩
  refine ⟨h.next, fun hk m a ha => ?_, h.trig, fun m hm => (alook_aset _ _ _ _).trans (if_neg fun he => hm (by rw [he])), rfl, fun m _ _ => .inl le_rfl, fun _ => rfl, rfl, fun _ _ h => .inl h⟩
  show a < s.next + 1
  by_cases hm : m = name
  · subst hm
    have ha : alook m (aset m s.next s.activate) = some a := ha
    rw [alook_aset, if_pos rfl] at ha
    cases ha; exact Nat.lt_succ_self _
  · have ha : alook m (aset name s.next s.activate) = some a := ha
    rw [alook_aset, if_neg hm] at ha
    exact (hk m a ha).trans (Nat.lt_succ_self _)

/-- Code that does not change the list of processes, and what it gives. -/
def Still (Q : A → Prop) (m : SimM A) : Prop := ∀ s : Sim, (m s).1.startedList = s.startedList ∧ ∀ a, (m s).2 = .ok a → Q a

theorem still_bind {Q : B → Prop} {m : SimM A} {f : A → SimM B} (hm : Still (fun _ => True) m) (hf : ∀ a, Still Q (f a)) : Still Q (m >>= f) := by
  intro s
  show (SimM.bind m f s).1.startedList = s.startedList ∧ ∀ a, (SimM.bind m f s).2 = .ok a → Q a
  unfold SimM.bind
  have h1 := (hm s).1
  rcases h : m s with ⟨s1, e | a⟩
  · rw [h] at h1; exact ⟨h1, fun a h => by cases h⟩
  · rw [h] at h1
    exact ⟨(hf a s1).1.trans h1, (hf a s1).2⟩

/-- A module without requests. -/
theorem still_idle {name : String} : Still (fun r => ∃ ev, r = .wait ev (.extraIdle name)) (do
    .set (fun s => { s with interruptibles := adel name s.interruptibles })
    let a ← activateOf name
    let gone ← SimM.get (·.processed a)
    if gone then do
      let a' ← renewActivate name
      pure (.wait a' (.extraIdle name))
    else pure (.wait a (.extraIdle name)) : SimM Res) := by
  have hp : ∀ a, Still (fun r => ∃ ev, r = .wait ev (.extraIdle name)) (pure (.wait a (.extraIdle name)) : SimM Res) := fun a s => ⟨rfl, fun r h => by cases h; exact ⟨a, rfl⟩⟩
  refine still_bind (fun s => ⟨rfl, fun _ _ => trivial⟩) fun _ => still_bind (fun s => ⟨?_, fun _ _ => trivial⟩) fun a => still_bind (fun s => ⟨rfl, fun _ _ => trivial⟩) fun gone => ?_
  · unfold activateOf
    cases alook name s.activate <;> rfl
  · split
    · exact still_bind (fun s => ⟨rfl, fun _ _ => trivial⟩) fun a' => hp a'
    · exact hp a

theorem harky_extraLoop (C : Cfg) {name : String} : HarkyRes (some name) q (extraLoop C name) := by
  have hgen : ∀ d : Desc, (Pt.localNew name (d.run C)).module = Option.none := fun d => rfl
  intro s hl
  show Hark _ q s ((SimM.bind (SimM.get Sim.startedList) _ : SimM Res) s).1 ∧ ∀ ev pt, ((SimM.bind (SimM.get Sim.startedList) _ : SimM Res) s).2 = .ok (.wait ev pt) →
    pt.module = some name ∧ ∀ n, pt = .extraIdle n → orders n ((SimM.bind (SimM.get Sim.startedList) _ : SimM Res) s).1.startedList = 0
  unfold SimM.bind SimM.get
  dsimp only
  generalize ht : takeFor name s.startedList = r
  rcases r with x | _ | ⟨⟨i, d⟩, rest⟩
  · exact harky_throwRes s hl
  · have hk : Harky (some name) q (do
      .set (fun s => { s with interruptibles := adel name s.interruptibles })
      let a ← activateOf name
      let gone ← SimM.get (·.processed a)
      if gone then do
        let a' ← renewActivate name
        pure (.wait a' (.extraIdle name))
      else pure (.wait a (.extraIdle name)) : SimM Res) := by
      have hr := harky_renew (name := name) (q := q)
      harky
    obtain ⟨h1, h2⟩ := still_idle (name := name) s
    refine ⟨hk s hl, fun ev pt he => ?_⟩
    obtain ⟨ev', h3⟩ := h2 _ he
    cases h3
    refine ⟨rfl, fun n hn => ?_⟩
    cases hn
    exact (congrArg _ h1).trans (orders_none ht)
  · have hrest : HarkyRes (some name) q (do
      let a ← activateOf name
      let busy ← SimM.get (·.triggered a)
      if busy then pure () else succeed a
      let pro ← process (.localNew name (d.run C))
      pure (.wait pro (.extraMain name pro)) : SimM Res) := by
      have hp := harky_process (o := some name) (q := q) (hgen d)
      harky
    have h1 : Hark (some name) q s (s.setStarted rest) := hark_setStarted fun m hm _ => ((orders_take ht).2 m (fun he => hm (by rw [he]))).le
    have h2 := hrest (s.setStarted rest) (h1.known hl)
    exact ⟨hark_trans hl h1 h2.1, h2.2⟩

theorem harky_extraAfterMain (C : Cfg) {name : String} {pro : ℕ} {x : Except PyErr SVal} : HarkyRes (some name) q (extraAfterMain C name pro x) := by
  have hr := harky_extraLoop (q := q) C (name := name)
  unfold extraAfterMain
  split
  · harky
  · harky
  · exact harky_bindRes (harky_process rfl) fun _ => harky_wait rfl (fun _ h => by cases h)
  · harky

theorem harky_extraAfterCont (C : Cfg) {name : String} {x : Except PyErr SVal} : HarkyRes (some name) q (extraAfterCont C name x) := by
  have hr := harky_extraLoop (q := q) C (name := name)
  unfold extraAfterCont
  split <;> harky

theorem harky_envIter {e : EnvEvent} {k : Mach → Out Mach EnvEvent Unit} : HarkyRes Option.none q (envIter e k) := by
  unfold envIter
  exact harky_bindRes (harky_process rfl) fun pro => harky_bindRes harky_get fun a => harky_bindRes harky_anyOf fun c => harky_wait rfl (fun _ h => by cases h)

theorem harky_envStart (C : Cfg) : HarkyRes Option.none q (envStart C) := fun s hl => by
  cases ha : s.envArgs with
  | none =>
    have : envStart C s = (s, .error .type) := by simp only [envStart, ha]
    rw [this]; exact ⟨hark_refl s, by simp⟩
  | some a =>
    have hk := leaves_env C.upper a.stimuli a.triggers a.times a.startTime s.w
    rcases ho : envProcess (fun env (w : Mach) => { w with env := some env }) envOf C.upper a.stimuli a.triggers a.times a.startTime s.w with ⟨w, e, k⟩ | ⟨w, r⟩ | ⟨w, x⟩
    · rw [ho] at hk
      have : envStart C s = envIter e k { s with w := w } := by simp only [envStart, ha, ho]
      rw [this]; exact harky_w harky_envIter hk.1 hl
    · rw [ho] at hk
      have : envStart C s = (SimM.throw .runtime : SimM Res) { s with w := w } := by simp only [envStart, ha, ho]; rfl
      rw [this]; exact harky_w harky_throwRes hk hl
    · rw [ho] at hk
      have : envStart C s = (SimM.throw x : SimM Res) { s with w := w } := by simp only [envStart, ha, ho]; rfl
      rw [this]; exact harky_w harky_throwRes hk hl

/-- The event of a module is triggered. -/
theorem succeed_triggered {a : ℕ} : (succeed a s).1.triggered a = true := by
  unfold succeed
  split
  · assumption
  · show (fset s.events a _ a).value.isSome = true
    rw [fset_same]; rfl

/-- After code that does not exempt the module. -/
theorem hark_called {n : String} (h : Hark Option.none (some n) s s') (hc : Called s' n) : Hark Option.none Option.none s s' :=
  ⟨h.next, h.known, h.trig, h.act, h.own, fun m ho _ => by
      by_cases hm : m = n
      · exact .inr (hm ▸ hc)
      · exact h.ords m ho (fun he => hm (Option.some.inj he).symm), h.procs, h.extra, h.pts⟩

theorem harky_startAutomatic {name : String} {i : ℕ} {d : Desc} : Harky Option.none Option.none (startAutomatic name i d) := fun s hl => by
  set s1 := s.setStarted (s.startedList ++ [.gen name i d]) with hs1
  have h1 : Hark Option.none (some name) s s1 := hark_setStarted fun m _ hm => by
    rw [orders_append]
    have : orders m [PItem.gen name i d] = 0 := by
      unfold orders
      rw [List.countP_cons_of_neg (by simpa [PItem.isFor] using fun he : name = m => hm (by rw [he]))]; rfl
    omega
  have hl1 := h1.known hl
  have hall : ∀ {s2}, Hark Option.none (some name) s1 s2 → Called s2 name → Hark Option.none Option.none s s2 := fun h2 hc => hark_called (hark_trans hl h1 h2) hc
  have heq : startAutomatic name i d s = (SimM.bind (activateOf name) fun a => SimM.bind (SimM.get (·.triggered a)) fun busy => if busy then (do
    let old ← SimM.get (fun s => alook name s.interruptibles)
    match old with
    | Option.none => .throw .key
    | some _ => do
      .set (fun s => { s with interruptibles := aset name i s.interruptibles })
      interruptExtra name)
  else (do
    .set (fun s => { s with interruptibles := aset name i s.interruptibles })
    succeed a)) s1 := rfl
  rw [heq]
  unfold SimM.bind activateOf SimM.get
  cases ha : alook name s1.activate with
  | none => exact hall (hark_refl s1) fun a h => by rw [ha] at h; cases h
  | some a =>
    dsimp only
    split
    · rename_i htr
      have hc : Called s1 name := fun b hb => by rw [ha] at hb; cases hb; exact htr
      have hk : Harky Option.none (some name) (do
        let old ← SimM.get (fun s => alook name s.interruptibles)
        match old with
        | Option.none => .throw .key
        | some _ => do
          .set (fun s => { s with interruptibles := aset name i s.interruptibles })
          interruptExtra name : SimM Unit) := by
        refine harky_bind harky_get fun old => ?_
        split <;> harky
      have h2 := hk s1 hl1
      exact hall h2 (called_hark hl1 h2 (by simp) hc)
    · set s2 : Sim := { s1 with interruptibles := aset name i s1.interruptibles } with hs2
      have h2 : Hark Option.none (some name) s1 s2 := hark_same rfl rfl rfl rfl rfl rfl rfl
      have h3 := harky_succeed (o := Option.none) (q := some name) (ev := a) s2 hl1
      refine hall (hark_trans hl1 h2 h3) fun b hb => ?_
      have hb : alook name (succeed a s2).1.activate = some b := hb
      rw [h3.act name (by simp)] at hb
      have hb : alook name s1.activate = some b := hb
      rw [ha] at hb; cases hb
      exact succeed_triggered

theorem harky_automatic {name : String} : Harky Option.none Option.none (automatic name) := fun s hl => by
  unfold automatic
  split
  · exact hark_refl s
  · split
    · exact hark_refl s
    · exact hark_trans hl (hark_same (s' := { s with w := { s.w with nextId := s.w.nextId + 1 } }) rfl rfl rfl rfl rfl rfl rfl) (harky_startAutomatic _ hl)

theorem harky_automaticAll : ∀ l : List String, Harky Option.none Option.none (automaticAll l)
  | [] => harky_pure
  | _ :: r => harky_bind harky_automatic fun _ => harky_automaticAll r

theorem harky_envNext {pro : ℕ} : Harky o q (envNext pro) := by unfold envNext; harky

theorem harky_envAdvance {k : Mach → Out Mach EnvEvent Unit} (h : ∀ w, (k w).Moves Leaves w) : HarkyRes Option.none Option.none (envAdvance k) := fun s hl => by
  have hk := h s.w
  unfold envAdvance
  split
  · rename_i w _ ho; rw [ho] at hk; exact harky_w (harky_done (v := .nothing)) hk hl
  · rename_i w x ho; rw [ho] at hk; exact harky_w (harky_throwRes (e := x)) hk hl
  · rename_i w e k' ho
    rw [ho] at hk
    exact harky_w (harky_bindRes (harky_automaticAll _) fun _ => harky_envIter) hk.1 hl

theorem harky_envProcStart {e : Ev} : HarkyRes Option.none q (envProcStart e) := fun s hl => by
  unfold envProcStart
  have h1 := harky_timeout (o := Option.none) (q := q) (d := e.time - s.now) s hl
  split
  · rename_i s1 t h
    rw [h] at h1
    exact ⟨h1, fun ev pt' he => by cases he; exact ⟨rfl, fun n hn => by cases hn⟩⟩
  · rename_i s1 x h
    rw [h] at h1
    have h2 := harky_bindRes (harky_activateProc (o := Option.none) (q := q) (e := e)) (fun _ => harky_throwRes (e := x)) s1 (h1.known hl)
    exact ⟨hark_trans hl h1 h2.1, h2.2⟩

theorem harky_envProcResume {e : Ev} {x : Except PyErr SVal} : HarkyRes Option.none q (envProcResume e x) := by
  unfold envProcResume
  split
  · exact harky_bindRes harky_activateProc fun _ => harky_done
  · exact harky_bindRes harky_activateProc fun _ => harky_throwRes
  · exact harky_bindRes harky_print fun _ => harky_bindRes harky_activateProc fun _ => harky_done

/-- The processes other than number 2. -/
theorem harky_code (C : Cfg) {pt : Pt} {x : Except PyErr SVal} (hm : pt.main = false) (h : Modest pt) : HarkyRes pt.module Option.none (code C pt x) := by
  cases pt with
  | procNew => cases hm
  | procFirst => cases hm
  | procIdle => cases hm
  | procSpin n => cases hm
  | procAgain => cases hm
  | extraMain name pro => exact harky_extraAfterMain C
  | extraCont name => exact harky_extraAfterCont C
  | localWait name e k => exact harky_localResume h
  | envProc e => exact harky_envProcResume
  | extraNew name => rcases x with x | v <;> [exact harky_throwRes; exact harky_extraLoop C]
  | extraIdle name => rcases x with x | v <;> [exact harky_throwRes; exact harky_bindRes harky_renew fun _ => harky_extraLoop C]
  | localNew name g => rcases x with x | v <;> [exact harky_throwRes; exact harky_resumed h]
  | envNew => rcases x with x | v <;> [exact harky_throwRes; exact harky_envStart C]
  | envWait pro k => rcases x with x | v <;> [exact harky_throwRes; exact harky_bindRes harky_envNext fun _ => harky_envAdvance h]
  | envProcNew e => rcases x with x | v <;> [exact harky_throwRes; exact harky_envProcStart]

/-! ## Notifying modules -/

theorem harky_notify {n : String} {i : ℕ} {d : Desc} (hl : Known s) : Hark Option.none Option.none s (notify (.gen n i d) s).1 ∧ ((notify (.gen n i d) s).2 = .ok () → Called (notify (.gen n i d) s).1 n) := by
  have heq : notify (.gen n i d) s = (SimM.bind (activateOf n) fun a => SimM.bind (SimM.get (·.triggered a)) fun busy => if busy then (do
      let old ← SimM.get (fun s => alook n s.interruptibles)
      match old with
      | Option.none => pure ()
      | some j =>
        if j = i then pure ()
        else do
          .set (fun s => { s with interruptibles := aset n i s.interruptibles })
          interruptExtra n)
    else (do
      if d.interruptible then .set (fun s => { s with interruptibles := aset n i s.interruptibles }) else pure ()
      succeed a)) s := rfl
  rw [heq]
  unfold SimM.bind activateOf SimM.get
  cases ha : alook n s.activate with
  | none => exact ⟨hark_refl s, fun h => by cases h⟩
  | some a =>
    dsimp only
    split
    · rename_i htr
      have hc : Called s n := fun b hb => by rw [ha] at hb; cases hb; exact htr
      have hk : Harky Option.none Option.none (do
        let old ← SimM.get (fun s => alook n s.interruptibles)
        match old with
        | Option.none => pure ()
        | some j =>
          if j = i then pure ()
          else do
            .set (fun s => { s with interruptibles := aset n i s.interruptibles })
            interruptExtra n : SimM Unit) := by
        refine harky_bind harky_get fun old => ?_
        split <;> harky
      have h2 := hk s hl
      exact ⟨h2, fun _ => called_hark hl h2 (by simp) hc⟩
    · have hset : ∀ s2 : Sim, Hark Option.none Option.none s s2 → Hark Option.none Option.none s (succeed a s2).1 ∧ Called (succeed a s2).1 n := fun s2 h2 => by
        have h3 := harky_succeed (o := Option.none) (q := Option.none) (ev := a) s2 (h2.known hl)
        refine ⟨hark_trans hl h2 h3, fun b hb => ?_⟩
        rw [h3.act n (by simp), h2.act n (by simp), ha] at hb
        cases hb
        exact succeed_triggered
      have key : ∀ b : Bool, Hark Option.none Option.none s ((do
          if b then .set (fun s => { s with interruptibles := aset n i s.interruptibles }) else pure ()
          succeed a : SimM Unit) s).1 ∧ Called ((do
          if b then .set (fun s => { s with interruptibles := aset n i s.interruptibles }) else pure ()
          succeed a : SimM Unit) s).1 n := fun b => by
        cases b
        · exact hset s (hark_refl s)
        · exact hset { s with interruptibles := aset n i s.interruptibles } (hark_same rfl rfl rfl rfl rfl rfl rfl)
      exact ⟨(key d.interruptible).1, fun _ => (key d.interruptible).2⟩

theorem harky_notifyAll : ∀ (l : List PItem) {s : Sim}, Known s → Hark Option.none Option.none s (notifyAll l s).1 ∧ ((notifyAll l s).2 = .ok () → ∀ n, 0 < orders n l → Called (notifyAll l s).1 n)
  | [], s, _ => ⟨hark_refl s, fun _ n h => by cases h⟩
  | .procedural :: r, s, _ => ⟨hark_refl s, fun h => by cases h⟩
  | .gen m i d :: r, s, hl => by
    obtain ⟨h1, h2⟩ := harky_notify (n := m) (i := i) (d := d) hl
    show Hark Option.none Option.none s (SimM.bind (notify (.gen m i d)) (fun _ => notifyAll r) s).1 ∧ ((SimM.bind (notify (.gen m i d)) (fun _ => notifyAll r) s).2 = .ok () → ∀ n, 0 < orders n (.gen m i d :: r) →
      Called (SimM.bind (notify (.gen m i d)) (fun _ => notifyAll r) s).1 n)
    unfold SimM.bind
    rcases hn : notify (.gen m i d) s with ⟨s1, x | u⟩
    · rw [hn] at h1; exact ⟨h1, fun h => by cases h⟩
    · rw [hn] at h1 h2
      obtain ⟨h3, h4⟩ := harky_notifyAll r (h1.known hl)
      refine ⟨hark_trans hl h1 h3, fun hok n hpos => ?_⟩
      by_cases hm : m = n
      · subst hm
        exact called_hark (h1.known hl) h3 (by simp) (h2 rfl)
      · refine h4 hok n ?_
        unfold orders at hpos ⊢
        rwa [List.countP_cons_of_neg (by simpa [PItem.isFor] using hm)] at hpos

end Verif
