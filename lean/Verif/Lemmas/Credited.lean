import Verif.Lemmas.Credit
import Verif.Lemmas.Origin
/-! # Whom reports are attributed to: all states -/
namespace Verif
open Verif.Spec

variable {A B : Type} {s s' : Sim} {C : Cfg} {p : ℕ} {N : List (String × BufClass)} {Q : A → Prop} {Q' : B → Prop}

/-- The environment changes nothing but itself. -/
def Scenic (w w' : Mach) : Prop := kindsOf w' = kindsOf w ∧ w'.procs = w.procs ∧ (w.interaction = [] → w'.interaction = [])

theorem scenic_env (upper : String → String) (a : StimArg) (b : TrigArg) (c : EnvTimes) (t : ℚ) (w : Mach) :
    (envProcess (fun env (w : Mach) => { w with env := some env }) envOf upper a b c t w).Moves Scenic w := by
  have h : ∀ l i time w, (envLoop (fun env (w : Mach) => { w with env := some env }) envOf i time l w).Moves Scenic w := by
    intro l
    induction l with
    | nil => intro i time w; exact ⟨rfl, rfl, id⟩
    | cons s r ih =>
      intro i time w
      simp only [envLoop]
      split
      · exact ⟨rfl, rfl, id⟩
      · split
        · exact ⟨rfl, rfl, id⟩
        · exact ⟨⟨rfl, rfl, id⟩, fun w' => ih _ _ w'⟩
  unfold envProcess
  dsimp only
  split
  · exact ⟨rfl, rfl, id⟩
  · exact ⟨⟨rfl, rfl, id⟩, fun w' => h _ _ _ w'⟩

/-- What a process that waits will report. -/
def PtFits (N : List (String × BufClass)) : Pt → Prop
  | .localNew _ g => ∀ w, Peopled N w → Credits N (g w)
  | .localWait _ e k => FitsY N (.ev e) ∧ ∀ w, Peopled N w → Credits N (k w)
  | .envWait _ k => ∀ w, (k w).Moves Scenic w
  | .envProcNew e => Apt N e
  | .envProc e => Apt N e
  | _ => True

/-- The invariant. -/
structure Tidy (N : List (String × BufClass)) (s : Sim) : Prop where
  mach : Peopled N s.w
  own : ∀ l, s.started = some l → ItemsIn N l
  conts : ∀ ev d, (s.events ev).value = some (.ok (.cont d)) → Suits N d
  trace : ∀ x ∈ s.trace, Apt N x.2
  points : ∀ p pt, s.points p = some pt → PtFits N pt

/-- Nothing that matters happens. -/
structure Lull (s s' : Sim) : Prop where
  mach : Scenic s.w s'.w
  own : s'.started = s.started
  conts : NoConts s s'
  trace : s'.trace = s.trace
  points : s'.points = s.points

theorem tidy_lull (h : Tidy N s) (hl : Lull s s') : Tidy N s' :=
  ⟨peopled_same h.mach hl.mach.1 hl.mach.2.1 hl.mach.2.2, by rw [hl.own]; exact h.own, fun ev d hd => h.conts ev d (hl.conts ev d hd), by rw [hl.trace]; exact h.trace, by rw [hl.points]; exact h.points⟩

theorem lull_refl (s : Sim) : Lull s s := ⟨⟨rfl, rfl, id⟩, rfl, noConts_refl s, rfl, rfl⟩
theorem lull_trans {a b c : Sim} (h1 : Lull a b) (h2 : Lull b c) : Lull a c :=
  ⟨⟨h2.mach.1.trans h1.mach.1, h2.mach.2.1.trans h1.mach.2.1, fun h => h2.mach.2.2 (h1.mach.2.2 h)⟩, h2.own.trans h1.own, fun ev d h => h1.conts ev d (h2.conts ev d h), h2.trace.trans h1.trace, h2.points.trans h1.points⟩

/-- Code that does nothing that matters. -/
def Lulling (m : SimM A) : Prop := ∀ s : Sim, Lull s (m s).1

/-- Code that keeps the invariant. -/
def Tidies (N : List (String × BufClass)) (m : SimM A) (Q : A → Prop) : Prop := ∀ s, Tidy N s → Tidy N (m s).1 ∧ ∀ a, (m s).2 = .ok a → Q a

theorem tidies_bind {m : SimM A} {f : A → SimM B} (hm : Tidies N m Q) (hf : ∀ a, Q a → Tidies N (f a) Q') : Tidies N (m >>= f) Q' := by
  intro s h
  obtain ⟨h1, h2⟩ := hm s h
  show Tidy N (SimM.bind m f s).1 ∧ ∀ a, (SimM.bind m f s).2 = .ok a → Q' a
  unfold SimM.bind
  rcases hr : m s with ⟨s1, e | a⟩
  · rw [hr] at h1
    exact ⟨h1, fun _ h => by cases h⟩
  · rw [hr] at h1 h2
    exact hf a (h2 a rfl) s1 h1

theorem tidies_lulling {m : SimM A} (hm : Lulling m) : Tidies N m (fun _ => True) := fun s h => ⟨tidy_lull h (hm s), fun _ _ => trivial⟩
theorem tidies_then {m : SimM A} {f : A → SimM B} (hm : Lulling m) (hf : ∀ a, Tidies N (f a) Q') : Tidies N (m >>= f) Q' := tidies_bind (tidies_lulling hm) fun a _ => hf a
theorem tidies_next {m : SimM A} {f : A → SimM B} (hm : Tidies N m (fun _ => True)) (hf : ∀ a, Tidies N (f a) Q') : Tidies N (m >>= f) Q' := tidies_bind hm fun a _ => hf a
theorem tidies_pure {a : A} (h : Q a) : Tidies N (pure a) Q := fun s hs => ⟨hs, fun _ h' => by cases h'; exact h⟩
theorem tidies_throw {e : PyErr} : Tidies N (SimM.throw e) Q := fun s hs => ⟨hs, fun _ h' => by cases h'⟩

theorem lulling_bind {m : SimM A} {f : A → SimM B} (hm : Lulling m) (hf : ∀ a, Lulling (f a)) : Lulling (m >>= f) := by
  intro s
  show Lull s (SimM.bind m f s).1
  unfold SimM.bind
  have h1 := hm s
  rcases h : m s with ⟨s1, e | a⟩
  · rw [h] at h1; exact h1
  · rw [h] at h1
    exact lull_trans h1 (hf a s1)

theorem lulling_pure {a : A} : Lulling (pure a) := fun s => lull_refl s
theorem lulling_throw {e : PyErr} : Lulling (SimM.throw e : SimM A) := fun s => lull_refl s
theorem lulling_get {f : Sim → A} : Lulling (SimM.get f) := fun s => lull_refl s
theorem lulling_ite {c : Prop} [Decidable c] {m m' : SimM A} (h : Lulling m) (h' : Lulling m') : Lulling (if c then m else m') := by split <;> assumption
theorem lulling_set {f : Sim → Sim} (h : ∀ s : Sim, (f s).w = s.w ∧ (f s).started = s.started ∧ (f s).events = s.events ∧ (f s).trace = s.trace ∧ (f s).points = s.points) : Lulling (SimM.set f) := fun s => by
  obtain ⟨h1, h2, h3, h4, h5⟩ := h s
  exact ⟨⟨congrArg kindsOf h1, congrArg Mach.procs h1, fun h => (congrArg Mach.interaction h1).trans h⟩, h2, fun ev d hv => by
    change ((f s).events ev).value = _ at hv
    rw [h3] at hv; exact hv, h4, h5⟩

theorem lull_alloc {E : SEv} (hE : ∀ d, E.value ≠ some (.ok (.cont d))) (s : Sim) : Lull s (s.alloc E) := ⟨⟨rfl, rfl, id⟩, rfl, noConts_alloc hE s, rfl, rfl⟩
theorem lull_timer {E : SEv} (hE : ∀ d, E.value ≠ some (.ok (.cont d))) (s : Sim) (u : Bool) (q : ℚ) : Lull s ((s.alloc E).schedule s.next u q) := ⟨⟨rfl, rfl, id⟩, rfl, noConts_alloc hE s, rfl, rfl⟩
theorem lull_trigger {v : Except PyErr SVal} (hv : ∀ d, v ≠ .ok (.cont d)) (s : Sim) (ev : ℕ) : Lull s (s.trigger ev v) := ⟨⟨rfl, rfl, id⟩, rfl, noConts_trigger hv s, rfl, rfl⟩
theorem lull_addCallback (s : Sim) (ev : ℕ) (cb : Callback) : Lull s (s.addCallback ev cb) := ⟨⟨rfl, rfl, id⟩, rfl, noConts_addCallback s ev cb, rfl, rfl⟩
theorem lulling_newEvent : Lulling newEvent := fun s => lull_alloc (fun _ h => by cases h) s

theorem lulling_succeed {ev : ℕ} : Lulling (succeed ev) := fun s => by
  unfold succeed
  split
  · exact lull_refl s
  · exact lull_trigger (fun _ h => by cases h) s ev

theorem lulling_timeout {d : ℚ} : Lulling (timeout d) := fun s => by
  unfold timeout
  split
  · exact lull_refl s
  · exact lull_timer (fun _ h => by cases h) s _ _

theorem lulling_interrupt {r : ℕ} : Lulling (interruptProcess r) := fun s => by
  unfold interruptProcess
  split
  · exact lull_refl s
  · exact lull_timer (fun _ h => by cases h) s _ _

theorem lulling_anyOf {a b : ℕ} : Lulling (anyOf a b) := fun s => by
  have key : ∀ (c ev : ℕ) (s : Sim), Lull s (if s.processed ev then (if s.triggered c then s else s.trigger c (.ok .nothing)) else s.addCallback ev (.check c)) := fun c ev s => by
    split
    · split
      · exact lull_refl s
      · exact lull_trigger (fun _ h => by cases h) s _
    · exact lull_addCallback s _ _
  have h0 : Lull s (s.alloc ⟨Option.none, false, some [.build s.next a b]⟩) := lull_alloc (fun _ h => by cases h) s
  exact lull_trans (lull_trans h0 (key s.next a _)) (key s.next b _)

theorem lulling_activateOf {name : String} : Lulling (activateOf name) := fun s => by
  unfold activateOf
  cases alook name s.activate <;> exact lull_refl s

theorem lulling_interruptExtra {name : String} : Lulling (interruptExtra name) := fun s => by
  unfold interruptExtra
  cases alook name s.extra with
  | none => exact lull_refl s
  | some p => exact lulling_interrupt s

macro "lullset" : tactic => `(tactic| (refine lulling_set fun _ => ?_; exact ⟨rfl, rfl, rfl, rfl, rfl⟩))

macro "lulls" : tactic => `(tactic| repeat' with_reducible first
  | assumption
  | exact lulling_pure | exact lulling_throw | exact lulling_get | exact lulling_newEvent | exact lulling_succeed | exact lulling_activateOf
  | exact lulling_interruptExtra | exact lulling_interrupt | exact lulling_anyOf | exact lulling_timeout
  | lullset
  | refine lulling_ite ?_ ?_
  | refine lulling_bind ?_ fun _ => ?_)

theorem lulling_activateProc {e : Ev} : Lulling (activateProc e) := by
  rcases activateProc_cases e with hp | hp <;> rw [hp]
  · exact lulling_pure
  · intro s
    dsimp only
    split
    · exact lull_refl s
    · exact lulling_succeed s

theorem lulling_envInteraction : Lulling envInteraction := fun s => by
  unfold envInteraction
  have h0 : Lulling (SimM.set (fun s => { s with w := { s.w with interaction := [] } })) := fun s => ⟨⟨rfl, rfl, fun _ => rfl⟩, rfl, noConts_refl s, rfl, rfl⟩
  cases s.w.env with
  | none => exact lull_refl s
  | some env =>
    dsimp only
    split
    · exact lulling_bind (lulling_succeed (ev := s.envActivate)) (fun _ => h0) s
    · exact h0 s

theorem lulling_renew {name : String} : Lulling (renewActivate name) := by unfold renewActivate; lulls
theorem lulling_envNext {pro : ℕ} : Lulling (envNext pro) := by unfold envNext; lulls

theorem lulling_notify (x : PItem) : Lulling (notify x) := by
  cases x with
  | procedural => exact lulling_throw
  | gen name i d =>
    refine lulling_bind lulling_activateOf fun a => lulling_bind lulling_get fun busy => lulling_ite (lulling_bind lulling_get fun old => ?_) (by lulls)
    split <;> lulls

theorem lulling_notifyAll : ∀ l : List PItem, Lulling (notifyAll l)
  | [] => lulling_pure
  | x :: r => lulling_bind (lulling_notify x) fun _ => lulling_notifyAll r

/-! ## Code that matters -/

theorem tidies_print {e : Ev} (h : FitsY N (.ev e)) : Tidies N (printEvent e) (fun _ => True) := by
  intro s hs
  rcases printEvent_cases e with ⟨_, hp⟩ | ⟨hu, hp⟩ <;> rw [hp]
  · exact ⟨hs, fun _ _ => trivial⟩
  · refine ⟨⟨hs.mach, hs.own, hs.conts, fun x hx => ?_, hs.points⟩, fun _ _ => trivial⟩
    rcases List.mem_append.1 hx with hx | hx
    · exact hs.trace x hx
    · rw [List.mem_singleton] at hx
      subst hx
      exact h.resolve_left hu

theorem tidy_setStarted {l : List PItem} (h : Tidy N s) (hl : ItemsIn N l) : Tidy N (s.setStarted l) := by
  unfold Sim.setStarted
  cases hs : s.started with
  | none => exact ⟨⟨h.mach.names, hl, h.mach.quiet⟩, (fun l' hl' => by cases hl'), h.conts, h.trace, h.points⟩
  | some l0 => exact ⟨h.mach, fun l' hl' => by cases hl'; exact hl, h.conts, h.trace, h.points⟩

theorem itemsIn_started (h : Tidy N s) : ItemsIn N s.startedList := by
  unfold Sim.startedList
  cases hs : s.started with
  | none => exact h.mach.procs
  | some l => exact h.own l hs

theorem tidies_procsReturned {v : SVal} : Tidies N (procsReturned v) (fun _ => True) := fun s h => by
  unfold procsReturned
  split
  · exact ⟨⟨h.mach, (fun l hl => by cases hl), h.conts, h.trace, h.points⟩, fun _ _ => trivial⟩
  · exact ⟨h, fun _ _ => trivial⟩

theorem tidies_startAutomatic {name : String} {i : ℕ} {d : Desc} (hd : Suits N d) : Tidies N (startAutomatic name i d) (fun _ => True) := by
  unfold startAutomatic
  refine tidies_next (fun s h => ⟨tidy_setStarted h (itemsIn_append (itemsIn_started h) hd), fun _ _ => trivial⟩) fun _ => tidies_lulling ?_
  refine lulling_bind lulling_activateOf fun a => lulling_bind lulling_get fun busy => lulling_ite (lulling_bind lulling_get fun old => ?_) (by lulls)
  split <;> lulls

theorem tidies_automatic {name : String} : Tidies N (automatic name) (fun _ => True) := fun s h => by
  unfold automatic
  split
  · exact ⟨h, fun _ _ => trivial⟩
  · rename_i b hb
    split
    · exact ⟨h, fun _ _ => trivial⟩
    · rename_i d hd
      have hk := mem_kinds h.mach hb
      have hn : Suits N d := by
        unfold automaticFor at hd
        split at hd
        · rename_i hc
          cases hd
          exact ⟨.visualLocation, hc ▸ hk, fun k hk => by cases hk; rfl⟩
        · rename_i hc
          split at hd
          · cases hd
            exact ⟨.visual, hc ▸ hk, fun k hk => by cases hk; rfl⟩
          · cases hd
        · cases hd
      exact tidies_startAutomatic hn _ (tidy_lull h (s' := { s with w := { s.w with nextId := s.w.nextId + 1 } }) ⟨⟨rfl, rfl, id⟩, rfl, noConts_refl s, rfl, rfl⟩)

theorem tidies_automaticAll : ∀ l : List String, Tidies N (automaticAll l) (fun _ => True)
  | [] => tidies_pure trivial
  | _ :: r => tidies_next tidies_automatic fun _ => tidies_automaticAll r

theorem tidies_process {pt : Pt} (h : PtFits N pt) : Tidies N (process pt) (fun _ => True) := by
  intro s hs
  have h1 := lull_alloc (E := ⟨Option.none, false, some []⟩) (fun _ h => by cases h) s
  have h2 := lull_timer (E := ⟨some (.ok .nothing), false, some [.resume s.next]⟩) (fun _ h => by cases h) (s.alloc ⟨Option.none, false, some []⟩) true 0
  have h3 := tidy_lull hs (lull_trans h1 h2)
  refine ⟨⟨h3.mach, h3.own, h3.conts, h3.trace, fun q pt' hq => ?_⟩, fun _ _ => trivial⟩
  have hq : fset s.points s.next (some pt) q = some pt' := hq
  by_cases he : q = s.next
  · subst he
    rw [fset_same] at hq
    cases hq
    exact h
  · rw [fset_other _ _ he] at hq
    exact hs.points q pt' hq

/-- When a process waits again, or ends. -/
def ResFits (N : List (String × BufClass)) : Res → Prop
  | .wait _ pt => PtFits N pt
  | .done v => ∀ d, v = .cont d → Suits N d

theorem tidy_mach {w : Mach} (h : Tidy N s) (hw : Peopled N w) : Tidy N { s with w := w } := ⟨hw, h.own, h.conts, h.trace, h.points⟩

theorem tidies_localRun {name : String} {g : Mach → Out Mach YV Unit} (h : ∀ w, Peopled N w → Credits N (g w)) : Tidies N (SimM.get (·.w) >>= fun w => localRun name (g w)) (ResFits N) := by
  intro s hs
  have h := h s.w hs.mach
  show Tidy N (localRun name (g s.w) s).1 ∧ ∀ a, (localRun name (g s.w) s).2 = .ok a → ResFits N a
  cases ho : g s.w with
  | yield w y k =>
    rw [ho] at h
    have hm := tidy_mach hs h.1
    cases y with
    | ev e => exact tidies_then lulling_timeout (fun t => tidies_pure (Q := ResFits N) (a := .wait t (.localWait name e k)) h.2) _ hm
    | cont d => exact ⟨hm, fun a ha => by cases ha; exact fun d' hd => by cases hd; exact h.2.1⟩
    | procs => exact ⟨hm, fun a ha => by cases ha; exact fun d' hd => by cases hd⟩
    | nothing => exact ⟨hm, fun a ha => by cases ha; exact fun d' hd => by cases hd⟩
  | ret w a => rw [ho] at h; exact ⟨tidy_mach hs h, fun a ha => by cases ha; exact fun d' hd => by cases hd⟩
  | raise w x => rw [ho] at h; exact ⟨tidy_mach hs h, fun a ha => by cases ha⟩

theorem resFits_nothing : ResFits N (.done .nothing) := fun d h => by cases h

theorem tidies_localResume {name : String} {e : Ev} {k : Mach → Out Mach YV Unit} {x : Except PyErr SVal} (he : FitsY N (.ev e)) (h : ∀ w, Peopled N w → Credits N (k w)) :
    Tidies N (localResume name e k x) (ResFits N) := by
  unfold localResume
  split
  · exact tidies_pure resFits_nothing
  · exact tidies_throw
  · exact tidies_next (tidies_print he) fun _ => tidies_then lulling_activateProc fun _ => tidies_then lulling_envInteraction fun _ => tidies_localRun h

theorem tidies_procCycle {pt : Pt} (h : PtFits N pt) : Tidies N (procCycle C pt) (ResFits N) :=
  tidies_then lulling_get fun _ => tidies_next (tidies_process fun w hw => crediting_procedural _ w hw) fun _ => tidies_pure h

theorem tidies_spins {k : ℕ} : Tidies N (procSpins k) (ResFits N) := tidies_then lulling_timeout fun _ => tidies_pure trivial

theorem tidies_procLoop : Tidies N procLoop (ResFits N) := by
  unfold procLoop
  intro s hs
  refine tidies_bind (Q := fun l => ItemsIn N l) (fun s hs => ⟨hs, fun a ha => by cases ha; exact itemsIn_started hs⟩) (fun l hl => ?_) s hs
  split
  · refine tidies_next (fun s hs => ⟨tidy_setStarted hs ?_, fun _ _ => trivial⟩) fun _ => ?_
    · exact fun n i d hm => hl n i d (mem_removeProcedural hm)
    · exact tidies_then lulling_get fun _ => tidies_then (lulling_notifyAll _) fun _ => tidies_spins
  · refine tidies_then lulling_get fun _ => tidies_then lulling_get fun _ => ?_
    split
    · exact tidies_spins
    · exact tidies_pure trivial

theorem tidies_start {name : String} {d : Desc} {g : ℕ → Pt} (hd : Suits N d) (hg : ∀ p, PtFits N (g p)) :
    Tidies N (process (.localNew name (d.run C)) >>= fun pro => pure (.wait pro (g pro))) (ResFits N) :=
  tidies_next (tidies_process fun w hw => crediting_run d hd w hw) fun _ => tidies_pure (hg _)

theorem tidies_extraLoop {name : String} : Tidies N (extraLoop C name) (ResFits N) := by
  unfold extraLoop
  refine tidies_bind (Q := fun l => ItemsIn N l) (fun s hs => ⟨hs, fun a ha => by cases ha; exact itemsIn_started hs⟩) fun l hl => ?_
  split
  · exact tidies_throw
  · refine tidies_then (by lullset) fun _ => tidies_then lulling_activateOf fun _ => tidies_then lulling_get fun _ => ?_
    split
    · exact tidies_then lulling_renew fun _ => tidies_pure trivial
    · exact tidies_pure trivial
  · rename_i i d rest ht
    obtain ⟨⟨j, hj⟩, hrest⟩ := mem_takeFor ht
    have hd := hl _ _ _ hj
    refine tidies_next (fun s hs => ⟨tidy_setStarted hs fun n i d hm => hl n i d (hrest _ hm), fun _ _ => trivial⟩) fun _ => tidies_then lulling_activateOf fun _ => tidies_then lulling_get fun _ => ?_
    split
    · exact tidies_start hd fun _ => trivial
    · exact tidies_then lulling_succeed fun _ => tidies_start hd fun _ => trivial

theorem tidies_extraAfterMain {name : String} {pro : ℕ} {x : Except PyErr SVal} (hx : ∀ d, x = .ok (.cont d) → Suits N d) : Tidies N (extraAfterMain C name pro x) (ResFits N) := by
  unfold extraAfterMain
  split
  · refine tidies_then lulling_get fun _ => ?_
    split
    · exact tidies_extraLoop
    · exact tidies_then lulling_interrupt fun _ => tidies_extraLoop
  · exact tidies_throw
  · exact tidies_start (g := fun _ => .extraCont name) (hx _ rfl) fun _ => trivial
  · exact tidies_extraLoop

theorem tidies_extraAfterCont {name : String} {x : Except PyErr SVal} : Tidies N (extraAfterCont C name x) (ResFits N) := by
  unfold extraAfterCont
  split
  · exact tidies_extraLoop
  · exact tidies_throw
  · exact tidies_extraLoop

theorem credited_env (e : EnvEvent) : Apt N e.ev := by
  obtain ⟨t, a⟩ := e
  refine ⟨?_, fun c hc => ?_⟩
  · cases a <;> rfl
  · cases a <;> cases hc

theorem tidies_envIter {e : EnvEvent} {k : Mach → Out Mach EnvEvent Unit} (h : ∀ w, (k w).Moves Scenic w) : Tidies N (envIter e k) (ResFits N) :=
  tidies_next (tidies_process (pt := .envProcNew _) (credited_env e)) fun _ => tidies_then lulling_get fun _ => tidies_then lulling_anyOf fun _ => tidies_pure h

theorem tidy_scenic {w : Mach} (h : Tidy N s) (hw : Scenic s.w w) : Tidy N { s with w := w } := tidy_mach h (peopled_same h.mach hw.1 hw.2.1 hw.2.2)

theorem tidies_envStart : Tidies N (envStart C) (ResFits N) := fun s hb => by
  cases ha : s.envArgs with
  | none =>
    have : envStart C s = (s, .error .type) := by simp only [envStart, ha]
    rw [this]; exact ⟨hb, fun r hr => by cases hr⟩
  | some a =>
    have hk := scenic_env C.upper a.stimuli a.triggers a.times a.startTime s.w
    rcases ho : envProcess (fun env (w : Mach) => { w with env := some env }) envOf C.upper a.stimuli a.triggers a.times a.startTime s.w with ⟨w, e, k⟩ | ⟨w, r⟩ | ⟨w, x⟩
    · rw [ho] at hk
      have : envStart C s = envIter e k { s with w := w } := by simp only [envStart, ha, ho]
      rw [this]; exact tidies_envIter hk.2 _ (tidy_scenic hb hk.1)
    · rw [ho] at hk
      have : envStart C s = (SimM.throw .runtime : SimM Res) { s with w := w } := by simp only [envStart, ha, ho]; rfl
      rw [this]; exact tidies_throw _ (tidy_scenic hb hk)
    · rw [ho] at hk
      have : envStart C s = (SimM.throw x : SimM Res) { s with w := w } := by simp only [envStart, ha, ho]; rfl
      rw [this]; exact tidies_throw _ (tidy_scenic hb hk)

theorem tidies_envAdvance {k : Mach → Out Mach EnvEvent Unit} (h : ∀ w, (k w).Moves Scenic w) : Tidies N (envAdvance k) (ResFits N) := fun s hb => by
  have hk := h s.w
  unfold envAdvance
  split
  · rename_i w _ ho; rw [ho] at hk; exact ⟨tidy_scenic hb hk, fun r hr => by cases hr; exact resFits_nothing⟩
  · rename_i w x ho; rw [ho] at hk; exact ⟨tidy_scenic hb hk, fun r hr => by cases hr⟩
  · rename_i w e k' ho
    rw [ho] at hk
    exact tidies_next (tidies_automaticAll _) (fun _ => tidies_envIter hk.2) _ (tidy_scenic hb hk.1)

theorem tidies_envProcStart {e : Ev} (he : Apt N e) : Tidies N (envProcStart e) (ResFits N) := fun s hb => by
  unfold envProcStart
  have h1 := lulling_timeout (d := e.time - s.now) s
  split
  · rename_i s1 t h
    rw [h] at h1
    exact ⟨tidy_lull hb h1, fun r hr => by cases hr; exact he⟩
  · rename_i s1 x h
    rw [h] at h1
    exact tidies_then (f := fun _ => SimM.throw x) lulling_activateProc (fun _ => tidies_throw) _ (tidy_lull hb h1)

theorem tidies_envProcResume {e : Ev} {x : Except PyErr SVal} (he : Apt N e) : Tidies N (envProcResume e x) (ResFits N) := by
  unfold envProcResume
  split
  · exact tidies_then lulling_activateProc fun _ => tidies_pure resFits_nothing
  · exact tidies_then lulling_activateProc fun _ => tidies_throw
  · exact tidies_next (tidies_print (.inr he)) fun _ => tidies_then lulling_activateProc fun _ => tidies_pure resFits_nothing

theorem tidies_code {pt : Pt} {x : Except PyErr SVal} (hp : PtFits N pt) (hx : ∀ d, x = .ok (.cont d) → Suits N d) : Tidies N (code C pt x) (ResFits N) := by
  unfold code
  split
  · exact tidies_procCycle trivial
  · exact tidies_next tidies_procsReturned fun _ => tidies_procLoop
  · exact tidies_spins
  · split
    · exact tidies_procCycle trivial
    · exact tidies_spins
  · exact tidies_next tidies_procsReturned fun _ => tidies_then lulling_newEvent fun _ => tidies_then (by lullset) fun _ => tidies_procLoop
  · exact tidies_extraLoop
  · exact tidies_then lulling_renew fun _ => tidies_extraLoop
  · exact tidies_extraAfterMain hx
  · exact tidies_extraAfterCont
  · exact tidies_localRun hp
  · exact tidies_localResume hp.1 hp.2
  · exact tidies_envStart
  · exact tidies_then lulling_envNext fun _ => tidies_envAdvance hp
  · exact tidies_envProcStart hp
  · exact tidies_envProcResume hp
  · exact tidies_throw

/-! ## Steps -/

theorem tidy_waits {ev : ℕ} {pt : Pt} (h : Tidy N s) (hp : PtFits N pt) : Tidy N (s.waits p ev pt) := by
  refine tidy_lull (s := { s with points := fset s.points p (some pt), target := fset s.target p ev }) ⟨h.mach, h.own, h.conts, h.trace, fun q pt' hq => ?_⟩ (lull_addCallback _ ev (.resume p))
  have hq : fset s.points p (some pt) q = some pt' := hq
  by_cases he : q = p
  · subst he
    rw [fset_same] at hq
    cases hq
    exact hp
  · rw [fset_other _ _ he] at hq
    exact h.points q pt' hq

theorem tidy_ends {v : Except PyErr SVal} (h : Tidy N s) (hv : ∀ d, v = .ok (.cont d) → Suits N d) : Tidy N (s.ends p v) := by
  refine ⟨h.mach, h.own, fun ev d hd => ?_, h.trace, fun q pt' hq => ?_⟩
  · have hd : (fset s.events p { s.events p with value := some v } ev).value = some (.ok (.cont d)) := hd
    by_cases he : ev = p
    · subst he
      rw [fset_same] at hd
      exact hv d (Option.some.inj hd)
    · rw [fset_other _ _ he] at hd
      exact h.conts ev d hd
  · have hq : fset s.points p Option.none q = some pt' := hq
    by_cases he : q = p
    · subst he
      rw [fset_same] at hq
      cases hq
    · rw [fset_other _ _ he] at hq
      exact h.points q pt' hq

theorem tidy_resume {x : Except PyErr SVal} (h : Tidy N s) (hx : ∀ d, x = .ok (.cont d) → Suits N d) : Tidy N (s.resume C p x) := by
  cases hp : s.points p with
  | none =>
    have : s.resume C p x = s := by unfold Sim.resume; rw [hp]
    rw [this]; exact h
  | some pt =>
    rw [resume_eq C hp]
    obtain ⟨h3, h4⟩ := tidies_code (C := C) (h.points p pt hp) hx s h
    rcases hcode : code C pt x s with ⟨s1, e | r⟩
    · rw [hcode] at h3
      exact tidy_ends h3 fun d hd => by cases hd
    · rw [hcode] at h3 h4
      have h4 := h4 r rfl
      cases r with
      | wait ev pt' => exact tidy_waits h3 h4
      | done v => exact tidy_ends h3 fun d hd => h4 d (by cases hd; rfl)

theorem tidy_unmoved (h : Tidy N s) (hs : Unmoved s s') (hb : s'.w.bufs = s.w.bufs) (hi : s'.w.interaction = s.w.interaction) : Tidy N s' :=
  tidy_lull h ⟨⟨by unfold kindsOf; rw [hb], hs.procs, fun h => hi.trans h⟩, hs.started, hs.conts, hs.trace, hs.points⟩

theorem tidy_callback {ev : ℕ} {v : Except PyErr SVal} {cb : Callback} (h : Tidy N s) (hv : ∀ d, v = .ok (.cont d) → Suits N d) : Tidy N (callback C ev v s cb) := by
  cases cb with
  | resume p =>
    rcases v with x | v
    · exact tidy_resume (tidy_unmoved h (unmoved_thin (thin_defuse (ev := ev)) rfl rfl rfl) rfl rfl) hv
    · exact tidy_resume h hv
  | interrupt p =>
    simp only [callback]
    split
    · exact h
    · exact tidy_resume (tidy_unmoved h (unmoved_thin (thin_drop (ev := s.target p) (cb := .resume p) (by simp)) rfl rfl rfl) rfl rfl) hv
  | check d =>
    simp only [callback]
    split
    · exact h
    · rcases v with x | v
      · exact tidy_unmoved h (unmoved_trans (unmoved_thin (thin_defuse (ev := ev)) rfl rfl rfl) (unmoved_trigger fun d hd => by cases hd)) rfl rfl
      · exact tidy_unmoved h (unmoved_trigger fun d hd => by cases hd) rfl rfl
  | build d a b =>
    exact tidy_unmoved h (unmoved_trans (unmoved_thin (thin_drop (ev := a) (cb := .check d) (by simp)) rfl rfl rfl) (unmoved_thin (thin_drop (ev := b) (cb := .check d) (by simp)) rfl rfl rfl)) rfl rfl
  | stop => exact h

theorem tidy_callbacks {ev : ℕ} {v : Except PyErr SVal} (hv : ∀ d, v = .ok (.cont d) → Suits N d) : ∀ (l : List Callback) {s : Sim}, Tidy N s → Tidy N (l.foldl (callback C ev v) s)
  | [], _, h => h
  | _ :: l, _, h => tidy_callbacks hv l (tidy_callback h hv)

theorem tidy_step (h : Tidy N s) (hs : Stepped.leads (s.step C) s') : Tidy N s' := by
  have ht : ∀ en q, Tidy N (s.taken en q) := fun en q => tidy_unmoved h (unmoved_taken s en q) rfl rfl
  have hc : ∀ en : Entry, ∀ d, (s.events en.ev).value.getD (.ok .nothing) = .ok (.cont d) → Suits N d := fun en d hd => by
    cases hv : (s.events en.ev).value with
    | none => rw [hv] at hd; cases hd
    | some u => rw [hv] at hd; exact h.conts en.ev d (by rw [hv]; exact congrArg some hd)
  rcases step_cases (C := C) (s := s) rfl with ⟨h0, _⟩ | ⟨en, q, hq, ⟨_, h0⟩ | ⟨hst, h0 | ⟨x, h0⟩⟩⟩ <;> rw [h0] at hs <;> rcases hs with hs | hs | ⟨_, hs⟩ <;> cases hs
  · exact ht en q
  · exact tidy_callbacks (hc en) _ (ht en q)
  · exact tidy_callbacks (hc en) _ (ht en q)

variable {w : Mach} {args : Option EnvArgs} {t : ℚ}

theorem tidies_initExtra : ∀ l : List String, Tidies N (initExtra l) (fun _ => True)
  | [] => tidies_pure trivial
  | n :: r => by
    unfold initExtra
    split
    · exact tidies_initExtra r
    · exact tidies_next (tidies_process (pt := .extraNew n) trivial) fun _ => tidies_then lulling_newEvent fun _ => tidies_then (by lullset) fun _ => tidies_initExtra r

theorem tidy_init (hw : Peopled N w) : Tidy N (Sim.init w args t) := by
  have h0 : Tidy N (Sim.blank w args t) := ⟨hw, (fun l hl n i d hm => by cases hl; cases hm), (fun ev d hd => by cases hd), (fun x hx => by cases hx), fun q pt hq => by cases hq⟩
  refine (tidies_next (Q' := fun _ => True) (tidies_process (pt := .procNew) trivial) (fun _ => tidies_next (tidies_initExtra (w.bufs.map Prod.fst)) fun _ => ?_) _ h0).1
  split
  · exact tidies_next (tidies_process (pt := .envNew) trivial) fun _ => tidies_pure trivial
  · exact tidies_pure trivial

theorem tidy_reachable (hw : Peopled N w) (h : Reachable C w args t s) : Tidy N s := by
  induction h with
  | init => exact tidy_init hw
  | @stop s1 s2 q r hr hs ih =>
    have : s2 = (s1.setStop q).1 := by rw [hs]
    subst this
    refine tidy_unmoved ih (unmoved_setStop s1 q) ?_ ?_ <;>
    · unfold Sim.setStop
      split <;> rfl
  | step hr hs ih => exact tidy_step ih (.inl hs)
  | stopped hr hs ih => exact tidy_step ih (.inr (.inl hs))
  | raised hr hs ih => exact tidy_step ih (.inr (.inr ⟨_, hs⟩))
  | @compile s1 s2 r hr hs ih =>
    have : s2 = (compileAtEnd C s1).1 := by rw [hs]
    subst this
    have h1 := (compileIn_rest C s1.w).2.2
    have h2 := compileIn_interaction (C := C) s1.w
    refine tidy_unmoved ih (unmoved_compile s1) ?_ ?_
    · unfold compileAtEnd
      split
      · rcases hci : compileIn C s1.w with ⟨w', x | o⟩ <;> rw [hci] at h1 <;> exact h1
      · rfl
    · unfold compileAtEnd
      split
      · rcases hci : compileIn C s1.w with ⟨w', x | o⟩ <;> rw [hci] at h2 <;> exact h2
      · rfl

end Verif
