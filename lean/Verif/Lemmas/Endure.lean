import Verif.Lemmas.Toll
/-! # What is left to be done: the processes of rules and of the environment -/
namespace Verif
open Verif.Spec

variable {C : Cfg} {N n m p : ℕ} {s s' : Sim} {A B : Type}

/-! ## The process of a cycle -/

/-- What happens once the process of a module or of rules goes on. -/
def announced (e : Ev) : SimM Unit := do
  printEvent e
  activateProc e
  envInteraction

theorem charges_announced {e : Ev} (he : e.proc = procName) : Charges C N 1 (announced e) :=
  charges_le (charges_bind (n := 0) (m := 1) charges_print fun _ => charges_bind (n := 0) (m := 1) (charges_activate' he) fun _ => charges_interaction) (by omega)

theorem charges_announced' {e : Ev} : Charges C N 13 (announced e) :=
  charges_le (charges_bind (n := 0) (m := 13) charges_print fun _ => charges_bind (n := 12) (m := 1) charges_activate fun _ => charges_interaction) (by omega)

theorem localResume_ok {name : String} {e : Ev} {k : Mach → Out Mach YV Unit} {v : SVal} (s : Sim) : localResume name e k (.ok v) s =
    match announced e s with
    | (s1, .ok _) => localRun name (k s1.w) s1
    | (s1, .error x) => (s1, .error x) := by
  show SimM.bind (printEvent e) (fun _ => SimM.bind (activateProc e) fun _ => SimM.bind envInteraction fun _ => SimM.bind (SimM.get Sim.w) fun w => localRun name (k w)) s =
    match SimM.bind (printEvent e) (fun _ => SimM.bind (activateProc e) fun _ => envInteraction) s with
    | (s1, .ok _) => localRun name (k s1.w) s1
    | (s1, .error x) => (s1, .error x)
  unfold SimM.bind
  rcases printEvent e s with ⟨s1, x | a⟩
  · rfl
  · dsimp only
    rcases activateProc e s1 with ⟨s2, x | a⟩
    · rfl
    · dsimp only
      rcases envInteraction s2 with ⟨s3, x | a⟩ <;> rfl

theorem swap_w (hs : Sane C s) (w : Mach) : Sane C { s with w := w } ∧ Level0 N s { s with w := w } ∧ (w.procs.countP PItem.isGen = s.w.procs.countP PItem.isGen → fuel { s with w := w } = fuel s) := by
  refine ⟨⟨hs.blank, hs.proc, hs.env, hs.ne, hs.free, hs.sound⟩, ⟨le_rfl, fun _ _ => rfl, rfl, rfl, rfl, rfl, says_same rfl rfl⟩, fun hg => ?_⟩
  have : debt { s with w := w } = debt s := by
    show w.procs.countP PItem.isGen + (s.started.getD []).countP PItem.isGen = s.w.procs.countP PItem.isGen + (s.started.getD []).countP PItem.isGen
    rw [hg]
  show s.queue.length + tot pw s + totE s + 1167 * debt { s with w := w } + due (s.events s.procActivate) = _
  rw [this]; rfl

/-- The next event is announced. -/
theorem localRun_ev (hs : Sane C s) {w : Mach} {e : Ev} {k : Mach → Out Mach YV Unit} {name : String} : ∃ s1, Sane C s1 ∧ Level0 N s s1 ∧ s1.procActivate = s.procActivate ∧
    (w.procs.countP PItem.isGen = s.w.procs.countP PItem.isGen → fuel s1 ≤ fuel s + 1) ∧ pcount s1.w = pcount w ∧
    ((∃ ev, localRun name (.yield w (.ev e) k) s = (s1, .ok (.wait ev (.localWait name e k)))) ∨ ∃ x, localRun name (.yield w (.ev e) k) s = (s1, .error x)) := by
  obtain ⟨h1, h2, h3⟩ := swap_w (N := N) hs w
  obtain ⟨g1, g2, g3⟩ := charges_timeout (C := C) (N := N) (d := e.time - round4 s.now) _ h1
  refine ⟨(timeout (e.time - round4 s.now) { s with w := w }).1, g1, level0_trans h2 g2.1, g2.act, fun hg => by have := h3 hg; omega, g2.pc, ?_⟩
  rcases ht : timeout (e.time - round4 s.now) { s with w := w } with ⟨s2, x | t⟩
  · refine .inr ⟨x, ?_⟩
    show SimM.bind (timeout (e.time - round4 s.now)) _ { s with w := w } = _
    unfold SimM.bind; rw [ht]
  · refine .inl ⟨t, ?_⟩
    show SimM.bind (timeout (e.time - round4 s.now)) _ { s with w := w } = _
    unfold SimM.bind; rw [ht]; rfl

/-- How the word PROCEDURAL and the cycles that are not so far change. -/
def Shift (s s1 : Sim) (pd pd' : ℕ) : Prop :=
  (pcount s1.w = pcount s.w + 1 ∧ pd' = pd + 1) ∨ (pcount s1.w = pcount s.w - 1 ∧ pd = 1 ∧ pd' = 0) ∨ (pcount s1.w = pcount s.w ∧ pd' = pd)

/-- What becomes of a cycle before a rule is selected. -/
structure Turn (C : Cfg) (N : ℕ) (s : Sim) (c pd : ℕ) (r : Sim × Except PyErr Res) : Prop where
  sane : Sane C r.1
  level : Level0 N s r.1
  act : r.1.procActivate = s.procActivate
  fuel : fuel r.1 + toll r.2 ≤ fuel s + c
  res : (∃ x, r.2 = .error x) ∨ (∃ v, v ≠ .procs ∧ r.2 = .ok (.done v)) ∨ (r.2 = .ok (.done .procs) ∧ pd = 0 ∧ pcount r.1.w = pcount s.w) ∨
    ∃ ev pt', r.2 = .ok (.wait ev pt') ∧ Sound C pt' ∧ lateW pt' = 0 ∧ (∀ N, envW N pt' = 0) ∧ Shift s r.1 pd (pendW pt')

theorem turn_error {c pd : ℕ} {s1 : Sim} {x : PyErr} (h : Outlay C N s c s1) : Turn C N s c pd (s1, .error x) := ⟨h.1, h.2.1.1, h.2.1.act, h.2.2, .inl ⟨x, rfl⟩⟩

theorem step_conf {a : Act} (h : a = .conflict) : a.step = .conf := by rw [h]; rfl

theorem turn_new (hs : Sane C s) (t : ℚ) (v : SVal) : Turn C N s 4 0 (code C (.localNew procName (genProcedural C t)) (.ok v) s) := by
  obtain ⟨e, k, hg, ha, hp, hf⟩ := forked_procedural C t s.w
  have hcode : code C (.localNew procName (genProcedural C t)) (.ok v) s = localRun procName (.yield { s.w with procs := s.w.procs ++ [.procedural], bv := BV.init } (.ev e) k) s := by
    show localRun procName (genProcedural C t s.w) s = _
    rw [hg]
  have hst := step_conf ha
  obtain ⟨s1, h1, h2, h3, h4, h5, h6⟩ := localRun_ev (N := N) hs (w := { s.w with procs := s.w.procs ++ [.procedural], bv := BV.init }) (e := e) (k := k) (name := procName)
  have h4 := h4 (by show (s.w.procs ++ [PItem.procedural]).countP PItem.isGen = _; rw [List.countP_append]; rfl)
  have h5 : pcount s1.w = pcount s.w + 1 := by rw [h5]; show (s.w.procs ++ [PItem.procedural]).countP _ = _; rw [List.countP_append]; rfl
  rw [hcode]
  rcases h6 with ⟨ev, h6⟩ | ⟨x, h6⟩
  · rw [h6]
    have hw : wt (.localWait procName e k) = 3 := by simp [wt, hst]
    refine ⟨h1, h2, h3, ?_, .inr (.inr (.inr ⟨ev, _, rfl, ⟨fun _ => ?_, fun h => absurd rfl h⟩, ?_, fun _ => rfl, .inl ⟨h5, ?_⟩⟩))⟩
    · show fuel s1 + wt (.localWait procName e k) ≤ _
      omega
    · unfold RuleWait; rw [hst]; exact ⟨hp, hf⟩
    · simp [lateW, hst]
    · simp [pendW, hst]
  · rw [h6]
    exact ⟨h1, h2, h3, by show fuel s1 + 0 ≤ _; omega, .inl ⟨x, rfl⟩⟩

/-- After the conflict resolution was announced. -/
theorem turn_conf (hs : Sane C s) {e : Ev} {k : Mach → Out Mach YV Unit} (he : e.proc = procName) (hf : ∀ w, Forked w (k w)) (x : Except PyErr SVal) :
    Turn C N s 3 1 (localResume procName e k x s) := by
  have hquiet : ∀ y : PyErr, localResume procName e k (.error y) s = (s, .ok (.done .nothing)) ∨ localResume procName e k (.error y) s = (s, .error y) := fun y => by
    cases y <;> first | exact .inl rfl | exact .inr rfl
  cases x with
  | error y =>
    rcases hquiet y with h | h <;> rw [h]
    · exact ⟨hs, level0_refl s, rfl, by show fuel s + 0 ≤ _; omega, .inr (.inl ⟨.nothing, by simp, rfl⟩)⟩
    · exact turn_error (outlay_le (outlay_refl hs) (by omega))
  | ok v =>
    rw [localResume_ok]
    have ha := charges_announced (C := C) (N := N) he s hs
    rcases hr : announced e s with ⟨s1, y | u⟩
    · rw [hr] at ha; exact turn_error (outlay_le ha (by omega))
    · rw [hr] at ha
      obtain ⟨a1, a2, a3⟩ := ha
      have hk := hf s1.w
      dsimp only at a1 a2 a3 ⊢
      cases ho : k s1.w with
      | ret w a => rw [ho] at hk; exact hk.elim
      | raise w y =>
        rw [ho] at hk
        have : Outlay C N s1 0 { s1 with w := w } := outlay_w a1 hk
        exact turn_error (outlay_le (outlay_trans ⟨a1, a2, a3⟩ this) (by omega))
      | yield w y k' =>
        rw [ho] at hk
        cases y with
        | ev e' =>
          obtain ⟨hp, hg, hk⟩ := hk
          obtain ⟨s2, h1, h2, h3, h4, h5, h6⟩ := localRun_ev (N := N) a1 (w := w) (e := e') (k := k') (name := procName)
          have h4 := h4 hg
          have hpc := a2.pc
          have hact := a2.act
          rcases h6 with ⟨ev, h6⟩ | ⟨y, h6⟩ <;> rw [h6]
          · rcases hk with ⟨hst, hpcw, hcl⟩ | ⟨hst, hpcw, n, hl⟩
            · have hw : wt (.localWait procName e' k') = 1 := by simp [wt, hst]
              have hpd : pendW (.localWait procName e' k') = 0 := by simp [pendW, hst]
              refine ⟨h1, level0_trans a2.1 h2, h3.trans hact, ?_, .inr (.inr (.inr ⟨ev, _, rfl, ⟨fun _ => ?_, fun h => absurd rfl h⟩, ?_, fun _ => rfl, .inr (.inl ⟨?_, rfl, hpd⟩)⟩))⟩
              · show fuel s2 + wt (.localWait procName e' k') ≤ _
                omega
              · unfold RuleWait; rw [hst]; exact ⟨hp, hcl⟩
              · simp [lateW, hst]
              · show pcount s2.w = _
                rw [h5, hpcw, hpc]
            · have hw : wt (.localWait procName e' k') = 0 := by simp [wt, hst]
              have hpd : pendW (.localWait procName e' k') = 1 := by simp [pendW, hst]
              refine ⟨h1, level0_trans a2.1 h2, h3.trans hact, ?_, .inr (.inr (.inr ⟨ev, _, rfl, ⟨fun _ => ?_, fun h => absurd rfl h⟩, ?_, fun _ => rfl, .inr (.inr ⟨?_, hpd⟩)⟩))⟩
              · show fuel s2 + wt (.localWait procName e' k') ≤ _
                omega
              · unfold RuleWait; rw [hst]; exact ⟨n, hl⟩
              · simp [lateW, hst]
              · show pcount s2.w = _
                rw [h5, hpcw, hpc]
          · exact ⟨h1, level0_trans a2.1 h2, h3.trans hact, by show fuel s2 + 0 ≤ _; omega, .inl ⟨y, rfl⟩⟩
        | procs => exact hk.elim
        | cont d => exact hk.elim
        | nothing => exact hk.elim

/-- After it was announced that no rule was found. -/
theorem turn_none (hs : Sane C s) {e : Ev} {k : Mach → Out Mach YV Unit} (he : e.proc = procName) (hf : Closing k) (x : Except PyErr SVal) :
    Turn C N s 1 0 (localResume procName e k x s) := by
  have hquiet : ∀ y : PyErr, localResume procName e k (.error y) s = (s, .ok (.done .nothing)) ∨ localResume procName e k (.error y) s = (s, .error y) := fun y => by
    cases y <;> first | exact .inl rfl | exact .inr rfl
  cases x with
  | error y =>
    rcases hquiet y with h | h <;> rw [h]
    · exact ⟨hs, level0_refl s, rfl, by show fuel s + 0 ≤ _; omega, .inr (.inl ⟨.nothing, by simp, rfl⟩)⟩
    · exact turn_error (outlay_le (outlay_refl hs) (by omega))
  | ok v =>
    rw [localResume_ok]
    have ha := charges_announced (C := C) (N := N) he s hs
    rcases hr : announced e s with ⟨s1, y | u⟩
    · rw [hr] at ha; exact turn_error (outlay_le ha (by omega))
    · rw [hr] at ha
      obtain ⟨a1, a2, a3⟩ := ha
      obtain ⟨k', hk⟩ := hf s1.w
      dsimp only
      rw [hk]
      exact ⟨a1, a2.1, a2.act, a3, .inr (.inr (.inl ⟨rfl, rfl, a2.pc⟩))⟩

/-- What becomes of a cycle once a rule is selected. -/
structure Freely (C : Cfg) (N : ℕ) (s : Sim) (r : Sim × Except PyErr Res) : Prop where
  sane : Sane C r.1
  level : Level N s r.1
  next : ∀ ev pt', r.2 = .ok (.wait ev pt') → Sound C pt' ∧ (∀ N, envW N pt' = 0) ∧ pendW pt' = 0

theorem freely_error {s1 : Sim} {x : PyErr} (h : Sane C s1) (hl : Level N s s1) : Freely C N s (s1, .error x) := ⟨h, hl, fun _ _ he => by cases he⟩
theorem freely_done {s1 : Sim} {v : SVal} (h : Sane C s1) (hl : Level N s s1) : Freely C N s (s1, .ok (.done v)) := ⟨h, hl, fun _ _ he => by cases he⟩

theorem freely_rule (hs : Sane C s) {e : Ev} {k : Mach → Out Mach YV Unit} (hk : Late n k) (x : Except PyErr SVal) :
    Freely C N s (localResume procName e k x s) ∧ ∀ ev pt', (localResume procName e k x s).2 = .ok (.wait ev pt') → lateW pt' ≤ n := by
  have hquiet : ∀ y : PyErr, localResume procName e k (.error y) s = (s, .ok (.done .nothing)) ∨ localResume procName e k (.error y) s = (s, .error y) := fun y => by
    cases y <;> first | exact .inl rfl | exact .inr rfl
  cases x with
  | error y =>
    rcases hquiet y with h | h <;> rw [h]
    · exact ⟨freely_done hs (level_refl s), fun _ _ he => by cases he⟩
    · exact ⟨freely_error hs (level_refl s), fun _ _ he => by cases he⟩
  | ok v =>
    rw [localResume_ok]
    have ha := charges_announced' (C := C) (N := N) (e := e) s hs
    rcases hr : announced e s with ⟨s1, y | u⟩
    · rw [hr] at ha; exact ⟨freely_error ha.1 ha.2.1, fun _ _ he => by cases he⟩
    · rw [hr] at ha
      obtain ⟨a1, a2, -⟩ := ha
      obtain ⟨hb, hm, hy⟩ := hk
      have hb := hb s1.w
      have hm := hm s1.w
      have hy := hy s1.w
      dsimp only at a1 a2 ⊢
      have hset : ∀ w : Mach, pcount w = pcount s1.w → Sane C { s1 with w := w } ∧ Level N s { s1 with w := w } := fun w hw => by
        obtain ⟨h1, h2, -⟩ := swap_w (N := N) a1 w
        exact ⟨h1, level_trans a2 ⟨h2, rfl, hw⟩⟩
      cases ho : k s1.w with
      | ret w a => rw [ho] at hm; exact ⟨freely_done (hset w hm).1 (hset w hm).2, fun _ _ he => by cases he⟩
      | raise w y => rw [ho] at hm; exact ⟨freely_error (hset w hm).1 (hset w hm).2, fun _ _ he => by cases he⟩
      | yield w y k' =>
        rw [ho] at hm hb hy
        have hw := hset w hm.1
        cases y with
        | ev e' =>
          obtain ⟨l, rfl, hk'⟩ := hb
          obtain ⟨s2, h1, h2, h3, h4, h5, h6⟩ := localRun_ev (N := N) a1 (w := w) (e := e') (k := k') (name := procName)
          have hlv : Level N s s2 := level_trans a2 ⟨h2, h3, h5.trans hm.1⟩
          have hst := hy.1 e' rfl
          rcases h6 with ⟨ev, h6⟩ | ⟨y, h6⟩ <;> rw [h6]
          · refine ⟨⟨h1, hlv, fun ev' pt' he => ?_⟩, fun ev' pt' he => ?_⟩ <;> cases he
            · refine ⟨⟨fun _ => ?_, fun h => absurd rfl h⟩, fun _ => rfl, by simp [pendW, hst]⟩
              unfold RuleWait; rw [hst]; exact ⟨l, hk', hm.2, hy.2⟩
            · have : lateW (.localWait procName e' k') = lives k' + 1 := by simp [lateW, hst]
              rw [this]
              have := lives_le hk'
              omega
          · exact ⟨freely_error h1 hlv, fun _ _ he => by cases he⟩
        | procs => exact ⟨freely_done hw.1 hw.2, fun _ _ he => by cases he⟩
        | cont d => exact ⟨freely_done hw.1 hw.2, fun _ _ he => by cases he⟩
        | nothing => exact ⟨freely_done hw.1 hw.2, fun _ _ he => by cases he⟩

end Verif
