import Verif.Lemmas.Endure
/-! # What is left to be done: the environment and process number 2 -/
namespace Verif
open Verif.Spec

variable {C : Cfg} {N n m p : ℕ} {s s' : Sim} {A B : Type}

/-! ## Code with unknown costs -/

/-- Processes are as before. -/
def Even (C : Cfg) (N : ℕ) (s s' : Sim) : Prop := Sane C s' ∧ Level N s s'
/-- Code that leaves processes as they are. -/
def Evens (C : Cfg) (N : ℕ) (m : SimM A) : Prop := ∀ s, Sane C s → Even C N s (m s).1

theorem evens_of {f : SimM A} (h : Charges C N n f) : Evens C N f := fun s hs => ⟨(h s hs).1, (h s hs).2.1⟩
theorem even_trans {a b c : Sim} (h1 : Even C N a b) (h2 : Even C N b c) : Even C N a c := ⟨h2.1, level_trans h1.2 h2.2⟩
theorem evens_bind {f : SimM A} {g : A → SimM B} (hf : Evens C N f) (hg : ∀ a, Evens C N (g a)) : Evens C N (f >>= g) := by
  intro s hs
  show Even C N s (SimM.bind f g s).1
  unfold SimM.bind
  have h1 := hf s hs
  rcases h : f s with ⟨s1, e | a⟩
  · rw [h] at h1; exact h1
  · rw [h] at h1; exact even_trans h1 (hg a s1 h1.1)
theorem evens_pure {a : A} : Evens C N (pure a) := evens_of charges_pure
theorem evens_get {f : Sim → A} : Evens C N (SimM.get f) := evens_of charges_get
theorem evens_throw {e : PyErr} : Evens C N (SimM.throw e : SimM A) := evens_of charges_throw
theorem evens_ite {b : Prop} [Decidable b] {f g : SimM A} (hf : Evens C N f) (hg : Evens C N g) : Evens C N (if b then f else g) := by split <;> assumption

theorem evens_interruptibles {f : Sim → List (String × ℕ)} : Evens C N (SimM.set fun s : Sim => { s with interruptibles := f s }) :=
  evens_of (n := 0) (charges_set fun s => ⟨⟨rfl, rfl, rfl, rfl, rfl, rfl, says_same rfl rfl⟩, rfl, rfl, rfl⟩)

theorem evens_interruptExtra {name : String} : Evens C N (interruptExtra name) := fun s hs => by
  unfold interruptExtra
  split
  · exact evens_of charges_interrupt s hs
  · exact ⟨hs, level_refl s⟩

theorem evens_notify (x : PItem) : Evens C N (notify x) := by
  cases x with
  | procedural => exact evens_throw
  | gen name i d =>
    unfold notify
    refine evens_bind (evens_of charges_activateOf) fun a => evens_bind evens_get fun busy => ?_
    split
    · refine evens_bind evens_get fun old => ?_
      split
      · exact evens_pure
      · split
        · exact evens_pure
        · exact evens_bind evens_interruptibles fun _ => evens_interruptExtra
    · dsimp only
      split
      · exact evens_bind evens_interruptibles fun _ => evens_of charges_succeed
      · exact evens_of charges_succeed

theorem evens_notifyAll : ∀ l, Evens C N (notifyAll l)
  | [] => evens_pure
  | x :: r => evens_bind (evens_notify x) fun _ => evens_notifyAll r

theorem even_events (hs : Sane C s) (f : ℕ → SEv) : Even C N s { s with events := f } :=
  ⟨⟨hs.blank, hs.proc, hs.env, hs.ne, hs.free, hs.sound⟩, ⟨⟨le_rfl, fun _ _ => rfl, rfl, rfl, rfl, rfl, says_same rfl rfl⟩, rfl, rfl⟩⟩

theorem evens_anyOf {a b : ℕ} : Evens C N (anyOf a b) := fun s hs => by
  unfold anyOf
  dsimp only
  have h1 : Even C N s (s.alloc ⟨Option.none, false, some [.build s.next a b]⟩) := ⟨(outlay_alloc (N := N) hs rfl).1, (outlay_alloc hs rfl).2.1⟩
  have hc : ∀ (s1 : Sim) (ev : ℕ), Sane C s1 → Even C N s1 (if s1.processed ev = true then (if s1.triggered s.next = true then s1 else s1.trigger s.next (.ok .nothing)) else s1.addCallback ev (.check s.next)) := fun s1 ev h => by
    split
    · split
      · exact ⟨h, level_refl _⟩
      · exact ⟨(outlay_trigger (N := N) h _ _).1, (outlay_trigger h _ _).2.1⟩
    · exact even_events h _
  have h2 := even_trans h1 (hc _ a h1.1)
  exact even_trans h2 (hc _ b h2.1)

theorem even_setStarted (hs : Sane C s) {l : List PItem} (h : l.countP (fun x => !x.isGen) = s.startedList.countP (fun x => !x.isGen)) : Even C N s (s.setStarted l) := by
  unfold Sim.setStarted
  cases hst : s.started with
  | some _ => exact ⟨⟨hs.blank, hs.proc, hs.env, hs.ne, hs.free, hs.sound⟩, ⟨⟨le_rfl, fun _ _ => rfl, rfl, rfl, rfl, rfl, says_same rfl rfl⟩, rfl, rfl⟩⟩
  | none =>
    refine ⟨⟨hs.blank, hs.proc, hs.env, hs.ne, hs.free, hs.sound⟩, ⟨⟨le_rfl, fun _ _ => rfl, rfl, rfl, rfl, rfl, says_same rfl rfl⟩, rfl, ?_⟩⟩
    unfold Sim.startedList at h
    rw [hst] at h
    exact h

theorem evens_startAutomatic {name : String} {i : ℕ} {d : Desc} : Evens C N (startAutomatic name i d) := by
  unfold startAutomatic
  refine evens_bind (fun s hs => even_setStarted hs ?_) fun _ => evens_bind (evens_of charges_activateOf) fun a => evens_bind evens_get fun busy => ?_
  · rw [List.countP_append]; rfl
  split
  · refine evens_bind evens_get fun old => ?_
    split
    · exact evens_throw
    · exact evens_bind evens_interruptibles fun _ => evens_interruptExtra
  · exact evens_bind evens_interruptibles fun _ => evens_of charges_succeed

theorem evens_automatic (name : String) : Evens C N (automatic name) := fun s hs => by
  unfold automatic
  split
  · exact ⟨hs, level_refl s⟩
  · split
    · exact ⟨hs, level_refl s⟩
    · have h1 : Outlay C N s 0 { s with w := { s.w with nextId := s.w.nextId + 1 } } := outlay_w hs rfl
      exact even_trans ⟨h1.1, h1.2.1⟩ (evens_startAutomatic _ h1.1)

theorem evens_automaticAll : ∀ l, Evens C N (automaticAll l)
  | [] => evens_pure
  | n :: r => evens_bind (evens_automatic n) fun _ => evens_automaticAll r

/-! ## The environment -/

/-- The environment goes on for at most `n` steps. -/
structure Drains (C : Cfg) (N n : ℕ) (s : Sim) (r : Sim × Except PyErr Res) : Prop where
  sane : Sane C r.1
  level : Level N s r.1
  next : ∀ ev pt', r.2 = .ok (.wait ev pt') → Sound C pt' ∧ lateW pt' = 0 ∧ pendW pt' = 0 ∧ envW N pt' ≤ n ∧ pt' ≠ .procIdle

theorem drains_error {s1 : Sim} {x : PyErr} (h : Even C N s s1) : Drains C N n s (s1, .error x) := ⟨h.1, h.2, fun _ _ he => by cases he⟩
theorem drains_trans {s1 : Sim} {r : Sim × Except PyErr Res} (h : Even C N s s1) (h' : Drains C N n s1 r) : Drains C N n s r := ⟨h'.sane, level_trans h.2 h'.level, h'.next⟩
theorem drains_bind {f : SimM A} {g : A → SimM Res} (hf : Evens C N f) (hs : Sane C s) (hg : ∀ a s1, Sane C s1 → Drains C N n s1 (g a s1)) : Drains C N n s ((f >>= g) s) := by
  show Drains C N n s (SimM.bind f g s)
  unfold SimM.bind
  have h1 := hf s hs
  rcases h : f s with ⟨s1, e | a⟩
  · rw [h] at h1; exact drains_error h1
  · rw [h] at h1; exact drains_trans h1 (hg a s1 h1.1)

theorem drains_iter (hs : Sane C s) {e : EnvEvent} {k : Mach → Out Mach EnvEvent Unit} (hk : ∀ w, EnvBrief n (k w)) (hm : ∀ w, (k w).Moves Leaves w) : Drains C N (n + 1) s (envIter e k s) := by
  unfold envIter
  refine drains_bind (evens_of (charges_process (pt := .envProcNew e.ev) trivial rfl rfl rfl)) hs fun pro s1 h1 => drains_bind evens_get h1 fun a s2 h2 => drains_bind evens_anyOf h2 fun c s3 h3 => ?_
  refine ⟨h3, level_refl s3, fun ev pt' he => ?_⟩
  cases he
  refine ⟨⟨⟨n, hk⟩, hm⟩, rfl, rfl, ?_, by simp⟩
  show envLives k + 1 ≤ n + 1
  have := envLives_le hk
  omega

/-- How many screens there are at most. -/
def Screens (C : Cfg) (N : ℕ) (s : Sim) : Prop := ∀ a, s.envArgs = some a → ∀ st tr ti, prepareEnv C.upper a.stimuli a.triggers a.times = .ok (st, tr, ti) → st.length ≤ N

theorem envBrief_le {W : Type} {o : Out W EnvEvent Unit} : ∀ {n m : ℕ}, EnvBrief n o → n ≤ m → EnvBrief m o := by
  induction o with
  | yield w y k ih =>
    rintro n m ⟨l, rfl, h⟩ hl
    exact ⟨m - 1, by omega, fun w => ih w (h w) (by omega)⟩
  | ret w a => intros; trivial
  | raise w x => intros; trivial

theorem drains_start (hs : Sane C s) (hN : Screens C N s) : Drains C N (N + 1) s (envStart C s) := by
  unfold envStart
  split
  · exact drains_error ⟨hs, level_refl s⟩
  · rename_i a ha
    have hm := leaves_env C.upper a.stimuli a.triggers a.times a.startTime s.w
    have hw : ∀ w : Mach, Leaves s.w w → Even C N s { s with w := w } := fun w h => ⟨(outlay_w (N := N) hs h).1, (outlay_w hs h).2.1⟩
    unfold envProcess at hm ⊢
    dsimp only at hm ⊢
    cases hp : prepareEnv C.upper a.stimuli a.triggers a.times with
    | error e => rw [hp] at hm; exact drains_error (hw _ hm)
    | ok x =>
      obtain ⟨st, tr, ti⟩ := x
      rw [hp] at hm
      have h1 := hw _ hm.1
      exact drains_trans h1 (drains_iter h1.1 (fun w => envBrief_le (envBrief_loop _ _ st 0 _ w) (hN a ha st tr ti hp)) hm.2)

theorem evens_envNext {pro : ℕ} : Evens C N (envNext pro) := by
  unfold envNext
  refine evens_bind evens_get fun a => evens_bind evens_get fun pressed => ?_
  split
  · intro s hs
    have h1 : Outlay C N s 0 (s.alloc ⟨Option.none, false, some []⟩) := outlay_alloc hs rfl
    obtain ⟨g1, g2, -⟩ := h1
    have h2 : Even C N s ({ s.alloc ⟨Option.none, false, some []⟩ with envActivate := s.next } : Sim) :=
      ⟨⟨g1.blank, g1.proc, Nat.lt_succ_self _, (Nat.ne_of_lt hs.proc).symm, g1.free, g1.sound⟩, ⟨⟨g2.next, g2.old, g2.late, g2.pend, g2.env, g2.args, g2.trace⟩, g2.act, g2.pc⟩⟩
    exact even_trans h2 (evens_of charges_interrupt _ h2.1)
  · exact evens_pure

theorem drains_advance (hs : Sane C s) {k : Mach → Out Mach EnvEvent Unit} (hk : ∀ w, EnvBrief n (k w)) (hm : ∀ w, (k w).Moves Leaves w) : Drains C N n s (envAdvance k s) := by
  have hb := hk s.w
  have hm := hm s.w
  have hw : ∀ w : Mach, Leaves s.w w → Even C N s { s with w := w } := fun w h => ⟨(outlay_w (N := N) hs h).1, (outlay_w hs h).2.1⟩
  unfold envAdvance
  cases ho : k s.w with
  | ret w a => rw [ho] at hm; exact ⟨(hw w hm).1, (hw w hm).2, fun _ _ he => by cases he⟩
  | raise w x => rw [ho] at hm; exact drains_error (hw w hm)
  | yield w e k' =>
    rw [ho] at hm hb
    obtain ⟨l, rfl, hb⟩ := hb
    exact drains_trans (hw w hm.1) (drains_bind (evens_automaticAll _) (hw w hm.1).1 fun _ s1 h1 => drains_iter h1 hb hm.2)

/-- The process of the environment. -/
theorem drains_code (hs : Sane C s) (hN : Screens C N s) {pt : Pt} (hpt : pt = .envNew ∨ ∃ pro k, pt = .envWait pro k) (hd : Sound C pt) (x : Except PyErr SVal) :
    ∃ n, Drains C N n s (code C pt x s) ∧ n + 1 ≤ envW N pt := by
  rcases hpt with rfl | ⟨pro, k, rfl⟩
  · refine ⟨N + 1, ?_, le_rfl⟩
    cases x with
    | error e => exact drains_error ⟨hs, level_refl s⟩
    | ok v => exact drains_start hs hN
  · obtain ⟨⟨n, hk⟩, hm⟩ := hd
    refine ⟨envLives k, ?_, le_rfl⟩
    cases x with
    | error e => exact drains_error ⟨hs, level_refl s⟩
    | ok v => exact drains_bind evens_envNext hs fun _ s1 h1 => drains_advance h1 (brief_envLives hk) hm

/-! ## Process number 2 -/

/-- The list of the processes is passed on. -/
theorem outlay_procsReturned (hs : Sane C s) : Outlay C N s 0 { s with started := Option.none } := by
  refine outlay_sameBut hs ⟨rfl, rfl, rfl, rfl, rfl, rfl, says_same rfl rfl⟩ rfl rfl ?_
  show 1167 * (s.w.procs.countP PItem.isGen + 0) ≤ 1167 * (s.w.procs.countP PItem.isGen + _) + 0
  omega

theorem any_procedural (l : List PItem) : (l.any (fun x => match x with | .procedural => true | _ => false) = true) ↔ 0 < l.countP (fun x => !x.isGen) := by
  induction l with
  | nil => simp
  | cons x r ih =>
    rw [List.any_cons, List.countP_cons]
    cases x with
    | procedural => simp [PItem.isGen]
    | gen n i d => simpa [PItem.isGen] using ih

/-- What process number 2 does with the list: either the word PROCEDURAL was in it, or it waits. -/
structure Loops (C : Cfg) (N c : ℕ) (s : Sim) (r : Sim × Except PyErr Res) : Prop where
  sane : Sane C r.1
  level : Level0 N s r.1
  act : r.1.procActivate = s.procActivate
  idle : ∀ ev, r.2 = .ok (.wait ev .procIdle) → ev = r.1.procActivate
  next : ∀ ev pt', r.2 = .ok (.wait ev pt') → Sound C pt' ∧ Light pt'
  res : (pcount r.1.w + 1 ≤ pcount s.w) ∨ (pcount r.1.w = pcount s.w ∧ fuel r.1 + toll r.2 ≤ fuel s + c)

theorem loops_procLoop (hs : Sane C s) (hst : s.started = Option.none) : Loops C N (if s.processed s.procActivate then 11 else 0) s (procLoop s) := by
  have hl : s.startedList = s.w.procs := by unfold Sim.startedList; rw [hst]; rfl
  by_cases hany : s.startedList.any (fun x => match x with | .procedural => true | _ => false) = true
  · have hpos : 0 < pcount s.w := by have := (any_procedural _).1 hany; rw [hl] at this; exact this
    have heq : procLoop s = (do let l ← SimM.get Sim.startedList; notifyAll l; procSpins 4 : SimM Res) (s.setStarted (removeProcedural s.startedList)) := by
      unfold procLoop
      show SimM.bind (SimM.get Sim.startedList) _ s = _
      exact (congrFun (if_pos hany) s).trans rfl
    have hset : s.setStarted (removeProcedural s.startedList) = { s with w := { s.w with procs := removeProcedural s.w.procs } } := by unfold Sim.setStarted; rw [hst, hl]
    obtain ⟨a1, a2, -⟩ := swap_w (N := N) hs { s.w with procs := removeProcedural s.w.procs }
    have hpc : pcount ({ s with w := { s.w with procs := removeProcedural s.w.procs } } : Sim).w + 1 ≤ pcount s.w := by
      have := (removeProcedural_counts s.w.procs).2
      show (removeProcedural s.w.procs).countP _ + 1 ≤ _
      unfold pcount at hpos ⊢
      omega
    rw [heq, hset]
    set s1 : Sim := { s with w := { s.w with procs := removeProcedural s.w.procs } } with hs1
    have hspins : ∀ s2, Sane C s2 → Even C N s2 (procSpins 4 s2).1 ∧ ∀ ev pt', (procSpins 4 s2).2 = .ok (.wait ev pt') → (Sound C pt' ∧ Light pt') ∧ pt' ≠ .procIdle := fun s2 h2 => by
      obtain ⟨g1, g2, -, g4⟩ := onto_spins (C := C) (N := N) 4 s2 h2
      refine ⟨⟨g1, g2⟩, fun ev pt' he => ⟨g4 ev pt' he, ?_⟩⟩
      rcases ht : timeout 0 s2 with ⟨s3, x | t⟩
      · have : procSpins 4 s2 = (s3, .error x) := by
          unfold procSpins
          show SimM.bind (timeout 0) _ s2 = _
          unfold SimM.bind; rw [ht]
        rw [this] at he; cases he
      · have : procSpins 4 s2 = (s3, .ok (.wait t (.procSpin 4))) := by
          unfold procSpins
          show SimM.bind (timeout 0) _ s2 = _
          unfold SimM.bind; rw [ht]; rfl
        rw [this] at he; cases he
        simp
    have hn := evens_notifyAll (C := C) (N := N) s1.startedList s1 a1
    have hall : Even C N s1 ((do let l ← SimM.get Sim.startedList; notifyAll l; procSpins 4 : SimM Res) s1).1 ∧
        ∀ ev pt', ((do let l ← SimM.get Sim.startedList; notifyAll l; procSpins 4 : SimM Res) s1).2 = .ok (.wait ev pt') → (Sound C pt' ∧ Light pt') ∧ pt' ≠ .procIdle := by
      show Even C N s1 (SimM.bind (notifyAll s1.startedList) (fun _ => procSpins 4) s1).1 ∧ ∀ ev pt', (SimM.bind (notifyAll s1.startedList) (fun _ => procSpins 4) s1).2 = .ok (.wait ev pt') → _
      unfold SimM.bind
      rcases h : notifyAll s1.startedList s1 with ⟨s2, e | a⟩
      · rw [h] at hn; exact ⟨hn, fun _ _ he => by cases he⟩
      · rw [h] at hn
        exact ⟨even_trans hn (hspins s2 hn.1).1, (hspins s2 hn.1).2⟩
    obtain ⟨b1, b2⟩ := hall
    refine ⟨b1.1, level0_trans a2 b1.2.1, b1.2.act, fun ev he => absurd rfl (b2 ev _ he).2, fun ev pt' he => (b2 ev pt' he).1, .inl ?_⟩
    rw [b1.2.pc]; exact hpc
  · have heq : procLoop s = (if s.processed s.procActivate then procSpins 4 else pure (.wait s.procActivate .procIdle) : SimM Res) s := by
      unfold procLoop
      show SimM.bind (SimM.get Sim.startedList) _ s = _
      exact (congrFun (if_neg hany) s).trans rfl
    rw [heq]
    by_cases hg : s.processed s.procActivate = true
    · rw [if_pos hg, if_pos hg]
      obtain ⟨g1, g2, g3, g4⟩ := onto_spins (C := C) (N := N) 4 s hs
      refine ⟨g1, g2.1, g2.act, fun ev he => ?_, g4, .inr ⟨g2.pc, g3⟩⟩
      rcases ht : timeout 0 s with ⟨s3, x | t⟩
      · have : procSpins 4 s = (s3, .error x) := by
          unfold procSpins
          show SimM.bind (timeout 0) _ s = _
          unfold SimM.bind; rw [ht]
        rw [this] at he; cases he
      · have : procSpins 4 s = (s3, .ok (.wait t (.procSpin 4))) := by
          unfold procSpins
          show SimM.bind (timeout 0) _ s = _
          unfold SimM.bind; rw [ht]; rfl
        rw [this] at he; cases he
    · rw [if_neg hg, if_neg hg]
      exact ⟨hs, level0_refl s, rfl, fun ev he => by cases he; rfl, fun ev pt' he => by cases he; exact ⟨trivial, rfl, rfl, fun _ => rfl⟩, .inr ⟨rfl, le_rfl⟩⟩

/-- The list was passed on to process number 2. -/
theorem loops_code (hs : Sane C s) {pt : Pt} (hpt : pt = .procFirst ∨ pt = .procAgain) :
    Sane C (code C pt (.ok .procs) s).1 ∧ Level0 N s (code C pt (.ok .procs) s).1 ∧
    (∀ ev, (code C pt (.ok .procs) s).2 = .ok (.wait ev .procIdle) → ev = (code C pt (.ok .procs) s).1.procActivate) ∧
    (∀ ev pt', (code C pt (.ok .procs) s).2 = .ok (.wait ev pt') → Sound C pt' ∧ Light pt') ∧
    ((pcount (code C pt (.ok .procs) s).1.w + 1 ≤ pcount s.w) ∨ (pcount (code C pt (.ok .procs) s).1.w = pcount s.w ∧ fuel (code C pt (.ok .procs) s).1 + toll (code C pt (.ok .procs) s).2 ≤ fuel s + wt pt)) := by
  obtain ⟨a1, a2, a3⟩ := outlay_procsReturned (N := N) hs
  rcases hpt with rfl | rfl
  · have heq : code C .procFirst (.ok .procs) s = procLoop { s with started := Option.none } := rfl
    rw [heq]
    obtain ⟨h1, h2, h3, h4, h5, h6⟩ := loops_procLoop (N := N) a1 rfl
    refine ⟨h1, level0_trans a2.1 h2, h4, h5, h6.imp id fun ⟨x, y⟩ => ⟨x, ?_⟩⟩
    have hw : wt .procFirst = 11 := rfl
    refine y.trans ?_
    split <;> omega
  · set s1 : Sim := { s with started := Option.none } with hs1
    set s2 : Sim := { s1.alloc ⟨Option.none, false, some []⟩ with procActivate := s1.next } with hs2
    have heq : code C .procAgain (.ok .procs) s = procLoop s2 := rfl
    rw [heq]
    obtain ⟨b1, b2, b3⟩ : Outlay C N s1 0 (s1.alloc ⟨Option.none, false, some []⟩) := outlay_alloc a1 rfl
    have c1 : Sane C s2 := ⟨b1.blank, Nat.lt_succ_self _, b1.env, Nat.ne_of_lt a1.env, a1.blank _ le_rfl, b1.sound⟩
    have c2 : Level0 N s1 s2 := ⟨b2.next, b2.old, b2.late, b2.pend, b2.env, b2.args, b2.trace⟩
    have hev : s2.events s2.procActivate = ⟨Option.none, false, some []⟩ := events_alloc_new
    have c3 : fuel s2 ≤ fuel s1 := by
      have e1 : tot pw s2 = tot pw (s1.alloc ⟨Option.none, false, some []⟩) := rfl
      have e2 : totE s2 = totE (s1.alloc ⟨Option.none, false, some []⟩) := rfl
      have e3 : debt s2 = debt (s1.alloc ⟨Option.none, false, some []⟩) := rfl
      have e4 : s2.queue.length = (s1.alloc ⟨Option.none, false, some []⟩).queue.length := rfl
      have e5 : due (s2.events s2.procActivate) = 0 := by rw [hev]; rfl
      unfold fuel at b3 ⊢
      omega
    have hng : s2.processed s2.procActivate = false := by unfold Sim.processed; rw [hev]; rfl
    obtain ⟨h1, h2, h3, h4, h5, h6⟩ := loops_procLoop (N := N) c1 rfl
    rw [hng] at h6
    exact ⟨h1, level0_trans a2.1 (level0_trans c2 h2), h4, h5, h6.imp id fun ⟨x, y⟩ => ⟨x, by simp at y; have : wt .procAgain = 0 := rfl; omega⟩⟩

/-- It was not passed on. -/
theorem code_failed {pt : Pt} (hpt : pt = .procFirst ∨ pt = .procAgain) {x : Except PyErr SVal} (hx : x ≠ .ok .procs) (s : Sim) : ∃ e, code C pt x s = (s, .error e) := by
  cases x with
  | error e => rcases hpt with rfl | rfl <;> exact ⟨e, rfl⟩
  | ok v =>
    have hv : v ≠ .procs := fun h => hx (by rw [h])
    cases v with
    | procs => exact absurd rfl hv
    | nothing => rcases hpt with rfl | rfl <;> exact ⟨.attribute, rfl⟩
    | cont d => rcases hpt with rfl | rfl <;> exact ⟨.attribute, rfl⟩

end Verif
